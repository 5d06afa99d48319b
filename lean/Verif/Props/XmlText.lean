import Verif.Proofs.XmlText
import Verif.Props.Export
import Verif.Props.Near
/-
C73: the text of the XML and TEI output is well-formed and can be read back.
-/

namespace CollateX

open Spec

/-! ### XML -/

theorem joinTexts_elems : ∀ l : List XNode, (∀ x ∈ l, ∃ n as l', x = XNode.elem n as l') →
    joinTexts l [] = l.map (fun x => match x with | .elem n as l' => .elem n as (joinTexts l' []) | .text s => .text s)
  | [], _ => by simp [joinTexts]
  | x :: l, h => by
    obtain ⟨n, as, l', rfl⟩ := h x (by simp)
    rw [joinTexts, joinTexts_elems l (fun y hy => h y (by simp [hy]))]
    rfl

theorem linesNodes_eq : ∀ l : List XNode, linesNodes l = l.map linesNode
  | [] => by rw [linesNodes]; rfl
  | x :: l => by rw [linesNodes, linesNodes_eq l]; rfl

theorem legalAll_iff : ∀ l : List XNode, legalAll l ↔ ∀ x ∈ l, x.legal
  | [] => by rw [legalAll]; simp
  | x :: l => by rw [legalAll, legalAll_iff l]; simp

theorem goodAll_iff : ∀ l : List XNode, goodAll l ↔ ∀ x ∈ l, x.good
  | [] => by rw [goodAll]; simp
  | x :: l => by rw [goodAll, goodAll_iff l]; simp

theorem nodup_one (a : Str × Str) : ([a].map Prod.fst).Nodup := by simp

theorem etree_good (r : Rdg) : r.etree.good := by
  unfold Rdg.etree
  rw [XNode.good]
  refine ⟨by decide, by simp, ?_, ?_⟩
  · intro a ha
    rw [List.mem_singleton.mp ha]
    exact show S "wit" ≠ [] ∧ (S "wit").all nameChar = true by decide
  · split
    · rw [goodAll]; trivial
    · rw [goodAll, goodAll, XNode.good]; exact ⟨trivial, trivial⟩

theorem etree_legal (r : Rdg) : r.etree.legal ↔ r.wit.all xmlLegal = true ∧ r.text.all xmlLegal = true := by
  unfold Rdg.etree
  rw [XNode.legal]
  refine and_congr (by simp) ?_
  split
  · rename_i h
    rw [legalAll, h]; simp
  · rw [legalAll, legalAll, XNode.legal]; simp

/-- The tree whose text is the XML output. -/
def xmlTree (apps : List (List Rdg)) : XNode :=
  .elem (S "root") [] (.text [] :: apps.map fun rdgs => XNode.elem (S "app") [] (rdgs.map Rdg.etree))

theorem xmlString_out (apps : List (List Rdg)) : xmlString apps = [] ++ ((xmlTree apps).out (S " />") ++ []) := by
  have h : ∀ l : List (List Rdg), (l.map fun rdgs => (XNode.elem (S "app") [] (rdgs.map Rdg.etree)).serialize).flatten =
      outAll (S " />") (l.map fun rdgs => XNode.elem (S "app") [] (rdgs.map Rdg.etree)) := by
    intro l
    induction l with
    | nil => simp [outAll]
    | cons a l ih => rw [List.map_cons, List.map_cons, List.flatten_cons, outAll, ih, serialize_out]
  unfold xmlString xmlTree
  rw [h, XNode.out, XNode.out]
  simp [attrsText, S]

theorem xmlTree_good (apps : List (List Rdg)) : (xmlTree apps).good := by
  unfold xmlTree
  rw [XNode.good, goodAll, goodAll_iff, XNode.good]
  refine ⟨by decide, by simp, by simp, trivial, ?_⟩
  intro x hx
  obtain ⟨rdgs, _, rfl⟩ := List.mem_map.mp hx
  rw [XNode.good, goodAll_iff]
  refine ⟨by decide, by simp, by simp, ?_⟩
  intro y hy
  obtain ⟨r, _, rfl⟩ := List.mem_map.mp hy
  exact etree_good r

theorem xmlTree_legal (apps : List (List Rdg)) :
    (xmlTree apps).legal ↔ ∀ rdgs ∈ apps, ∀ r ∈ rdgs, r.wit.all xmlLegal = true ∧ r.text.all xmlLegal = true := by
  unfold xmlTree
  rw [XNode.legal, legalAll, legalAll_iff, XNode.legal]
  constructor
  · intro h rdgs hr r hm
    have := h.2.2 _ (List.mem_map.mpr ⟨rdgs, hr, rfl⟩)
    rw [XNode.legal, legalAll_iff] at this
    exact (etree_legal r).mp (this.2 _ (List.mem_map.mpr ⟨r, hm, rfl⟩))
  · intro h
    refine ⟨by simp, rfl, ?_⟩
    intro x hx
    obtain ⟨rdgs, hr, rfl⟩ := List.mem_map.mp hx
    rw [XNode.legal, legalAll_iff]
    refine ⟨by simp, ?_⟩
    intro y hy
    obtain ⟨r, hm, rfl⟩ := List.mem_map.mp hy
    exact (etree_legal r).mpr (h rdgs hr r hm)

theorem etree_read (r : Rdg) : linesNodes (joinTexts [r.etree] []) =
    [.elem (S "rdg") [(S "wit", r.wit)] (if r.text = [] then [] else [.text (xmlLines r.text)])] := by
  unfold Rdg.etree
  by_cases h : r.text = []
  · rw [if_pos h, if_pos h]
    simp [joinTexts, linesNodes, linesNode]
  · rw [if_neg h, if_neg h]
    simp [joinTexts, linesNodes, linesNode, h]

/-- C73, XML: the text of the XML output reads back as a root with an `app` per column and in it a `rdg` per reading, with exactly the given
`wit` and with the given text up to line ends, if all characters are allowed in XML. -/
theorem C73_xml (apps : List (List Rdg)) (h : ∀ rdgs ∈ apps, ∀ r ∈ rdgs, ∀ c ∈ r.wit ++ r.text, xmlLegal c = true) :
    readXml (xmlString apps) = some (.elem (S "root") [] (apps.map fun rdgs => .elem (S "app") [] (rdgs.map fun r =>
      .elem (S "rdg") [(S "wit", r.wit)] (if r.text = [] then [] else [.text (xmlLines r.text)])))) := by
  have hL : (xmlTree apps).legal := (xmlTree_legal apps).mpr (fun rdgs hr r hm =>
    ⟨List.all_eq_true.mpr (fun c hc => h rdgs hr r hm c (by simp [hc])), List.all_eq_true.mpr (fun c hc => h rdgs hr r hm c (by simp [hc]))⟩)
  rw [xmlString_out]
  have := (readXml_doc (.inl rfl) (.inl ⟨rfl, rfl⟩) (.inl rfl) _ _ _ (xmlTree_good apps)).1 hL
  rw [xmlTree]
  rw [this]
  congr 2
  rw [joinTexts, List.nil_append, joinTexts_elems _ (by
    intro x hx
    obtain ⟨rdgs, _, rfl⟩ := List.mem_map.mp hx
    exact ⟨_, _, _, rfl⟩), linesNodes_eq, List.map_map, List.map_map]
  refine List.map_congr_left (fun rdgs _ => ?_)
  show linesNode (.elem (S "app") [] (joinTexts (rdgs.map Rdg.etree) [])) = _
  rw [linesNode, joinTexts_elems _ (by
    intro x hx
    obtain ⟨r, _, rfl⟩ := List.mem_map.mp hx
    exact ⟨_, _, _, rfl⟩), linesNodes_eq, List.map_map, List.map_map]
  congr 1
  refine List.map_congr_left (fun r _ => ?_)
  have := etree_read r
  unfold Rdg.etree at this ⊢
  rw [joinTexts, if_pos rfl, List.nil_append, linesNodes] at this
  exact (List.cons.inj this).1

/-- C73, XML: the text is not a well-formed document if and only if a siglum or a token has a character that is not allowed in XML. -/
theorem C73_xml_wellformed (apps : List (List Rdg)) :
    readXml (xmlString apps) = none ↔ ∃ rdgs ∈ apps, ∃ r ∈ rdgs, ∃ c ∈ r.wit ++ r.text, xmlLegal c = false := by
  constructor
  · intro h
    refine Classical.byContradiction (fun hc => ?_)
    rw [C73_xml apps (fun rdgs hr r hm c hcm => by
      cases he : xmlLegal c with
      | true => rfl
      | false => exact absurd ⟨rdgs, hr, r, hm, c, hcm, he⟩ hc)] at h
    cases h
  · rintro ⟨rdgs, hr, r, hm, c, hc, hf⟩
    rw [xmlString_out]
    refine (readXml_doc (.inl rfl) (.inl ⟨rfl, rfl⟩) (.inl rfl) _ _ _ (xmlTree_good apps)).2 ?_
    intro hL
    have := (xmlTree_legal apps).mp hL rdgs hr r hm
    rcases List.mem_append.mp hc with hc | hc
    · rw [List.all_eq_true.mp this.1 c hc] at hf; cases hf
    · rw [List.all_eq_true.mp this.2 c hc] at hf; cases hf

/-! ### TEI -/

theorem legalAll_append (l l' : List XNode) : legalAll (l ++ l') ↔ legalAll l ∧ legalAll l' := by
  simp only [legalAll_iff, List.mem_append]
  exact ⟨fun h => ⟨fun x hx => h x (.inl hx), fun x hx => h x (.inr hx)⟩, fun h x hx => hx.elim (h.1 x) (h.2 x)⟩

theorem goodAll_append (l l' : List XNode) : goodAll (l ++ l') ↔ goodAll l ∧ goodAll l' := by
  simp only [goodAll_iff, List.mem_append]
  exact ⟨fun h => ⟨fun x hx => h x (.inl hx), fun x hx => h x (.inr hx)⟩, fun h x hx => hx.elim (h.1 x) (h.2 x)⟩

theorem Blank.legal {s : Str} (h : Blank s) : s.all xmlLegal = true := by
  refine List.all_eq_true.mpr (fun c hc => ?_)
  rcases h c hc with rfl | rfl | rfl <;> decide

mutual
theorem spread_good (a nl : Str) : ∀ (x : XNode) (ind : Str), x.good → goodAll (x.spread a nl ind)
  | .text s, ind, _ => by simp [XNode.spread, goodAll, XNode.good]
  | .elem n as [], ind, h => by
    rw [XNode.spread]
    simp only [goodAll, and_true]
    exact ⟨by simp [XNode.good], h, by simp [XNode.good]⟩
  | .elem n as [.text s], ind, h => by
    rw [XNode.spread]
    simp only [goodAll, and_true]
    exact ⟨by simp [XNode.good], h, by simp [XNode.good]⟩
  | .elem n as [.elem n' as' l'], ind, h => by
    rw [XNode.spread.eq_4 _ _ _ _ _ _ _ (by simp)]
    rw [XNode.good, goodAll] at h
    simp only [goodAll, XNode.good, goodAll_append, and_true, true_and]
    exact ⟨h.1, h.2.1, h.2.2.1, spread_good a nl (.elem n' as' l') _ h.2.2.2.1, spreadAll_good a nl [] _ h.2.2.2.2⟩
  | .elem n as (x :: y :: l), ind, h => by
    rw [XNode.spread.eq_4 _ _ _ _ _ _ _ (by simp)]
    rw [XNode.good, goodAll] at h
    simp only [goodAll, XNode.good, goodAll_append, and_true, true_and]
    exact ⟨h.1, h.2.1, h.2.2.1, spread_good a nl x _ h.2.2.2.1, spreadAll_good a nl (y :: l) _ h.2.2.2.2⟩
theorem spreadAll_good (a nl : Str) : ∀ (l : List XNode) (ind : Str), goodAll l → goodAll (spreadAll a nl l ind)
  | [], ind, _ => by rw [spreadAll, goodAll]; trivial
  | x :: l, ind, h => by
    rw [goodAll] at h
    rw [spreadAll, goodAll_append]
    exact ⟨spread_good a nl x ind h.1, spreadAll_good a nl l ind h.2⟩
end

mutual
theorem spread_legal {a nl : Str} (ha : Blank a) (hn : Blank nl) : ∀ (x : XNode) (ind : Str), Blank ind → (legalAll (x.spread a nl ind) ↔ x.legal)
  | .text s, ind, hi => by
    simp [XNode.spread, legalAll, XNode.legal, List.all_append, hi.legal, hn.legal]
  | .elem n as [], ind, hi => by
    rw [XNode.spread]
    simp only [legalAll, and_true]
    simp [XNode.legal, legalAll, hi.legal, hn.legal]
  | .elem n as [.text s], ind, hi => by
    rw [XNode.spread]
    simp only [legalAll, and_true]
    simp [XNode.legal, legalAll, hi.legal, hn.legal]
  | .elem n as [.elem n' as' l'], ind, hi => by
    rw [XNode.spread.eq_4 _ _ _ _ _ _ _ (by simp)]
    have h1 := spread_legal ha hn (.elem n' as' l') (ind ++ a) (hi.append ha)
    have h2 := spreadAll_legal ha hn [] (ind ++ a) (hi.append ha)
    simp only [legalAll, and_true]
    rw [XNode.legal, XNode.legal.eq_2 _ as, XNode.legal.eq_2]
    simp only [legalAll, legalAll_append, h1, h2, and_true, XNode.legal, hi.legal, hn.legal, true_and]
  | .elem n as (x :: y :: l), ind, hi => by
    rw [XNode.spread.eq_4 _ _ _ _ _ _ _ (by simp)]
    have h1 := spread_legal ha hn x (ind ++ a) (hi.append ha)
    have h2 := spreadAll_legal ha hn (y :: l) (ind ++ a) (hi.append ha)
    simp only [legalAll, and_true]
    rw [XNode.legal, XNode.legal.eq_2, XNode.legal.eq_2]
    rw [legalAll, legalAll_append, legalAll_append, h1, h2]
    simp only [legalAll, XNode.legal, hi.legal, hn.legal, true_and, and_true]
theorem spreadAll_legal {a nl : Str} (ha : Blank a) (hn : Blank nl) : ∀ (l : List XNode) (ind : Str), Blank ind →
    (legalAll (spreadAll a nl l ind) ↔ legalAll l)
  | [], ind, hi => by rw [spreadAll, legalAll]
  | x :: l, ind, hi => by
    rw [spreadAll, legalAll_append, legalAll, spread_legal ha hn x ind hi, spreadAll_legal ha hn l ind hi]
end

theorem minidom_eq (n : TeiNode) : n.minidom = teiChild n := by cases n <;> rfl

theorem teiChild_good (n : TeiNode) : (teiChild n).good := by
  cases n with
  | text s => simp [teiChild, XNode.good]
  | app rdgs =>
    rw [teiChild, XNode.good, goodAll_iff]
    refine ⟨by decide, by simp, by simp, ?_⟩
    intro y hy
    obtain ⟨r, _, rfl⟩ := List.mem_map.mp hy
    rw [XNode.good]
    refine ⟨by decide, by simp, ?_, by simp [goodAll, XNode.good]⟩
    intro a ha
    rw [List.mem_singleton.mp ha]
    exact show S "wit" ≠ [] ∧ (S "wit").all nameChar = true by decide

theorem teiChild_legal (n : TeiNode) : (teiChild n).legal ↔ ∀ c ∈ teiChars n, xmlLegal c = true := by
  cases n with
  | text s => simp [teiChild, XNode.legal, teiChars]
  | app rdgs =>
    rw [teiChild, XNode.legal, legalAll_iff]
    constructor
    · rintro ⟨_, h⟩ c hc
      obtain ⟨r, hr, hc⟩ := List.mem_flatMap.mp hc
      have := h _ (List.mem_map.mpr ⟨r, hr, rfl⟩)
      rw [XNode.legal, legalAll, legalAll, XNode.legal] at this
      rcases List.mem_append.mp hc with hc | hc
      · exact List.all_eq_true.mp (this.1 (S "wit", r.wit) (by simp)) c hc
      · exact List.all_eq_true.mp this.2.1 c hc
    · intro h
      refine ⟨by simp, ?_⟩
      intro x hx
      obtain ⟨r, hr, rfl⟩ := List.mem_map.mp hx
      rw [XNode.legal, legalAll, legalAll, XNode.legal]
      refine ⟨?_, List.all_eq_true.mpr (fun c hc => h c (List.mem_flatMap.mpr ⟨r, hr, by simp [hc]⟩)), trivial⟩
      intro a ha
      rw [List.mem_singleton.mp ha]
      exact List.all_eq_true.mpr (fun c hc => h c (List.mem_flatMap.mpr ⟨r, hr, by simp [hc]⟩))

/-- The attributes of the root. -/
def teiAttrs : List (Str × Str) :=
  [(S "xmlns:cx", S "http://interedition.eu/collatex/ns/1.0"), (S "xmlns", S "http://www.tei-c.org/ns/1.0")]

theorem teiTree_eq (nodes : List TeiNode) : teiTree nodes = .elem (S "cx:apparatus") teiAttrs (nodes.map teiChild) := by
  unfold teiTree teiAttrs
  rw [show TeiNode.minidom = teiChild from funext minidom_eq]

/-- The children of the root with the white space that is inserted. -/
def teiSpread (indent : Bool) (l : List XNode) : List XNode :=
  match l with
  | [] => []
  | [.text s] => [.text s]
  | l => .text (if indent then ['\n'] else []) :: (spreadAll (if indent then ['\t'] else []) (if indent then ['\n'] else []) l
      (if indent then ['\t'] else []) ++ [.text []])

theorem out_spread (e a nl n : Str) (as : List (Str × Str)) (hn : Blank nl) (x : XNode) (l : List XNode) (h : ∀ s, x :: l ≠ [.text s]) :
    outAll e ((XNode.elem n as (x :: l)).spread a nl []) =
      (XNode.elem n as (.text nl :: (spreadAll a nl (x :: l) a ++ [.text []]))).out e ++ nl := by
  rw [XNode.spread.eq_4 _ _ _ _ _ _ _ (by intro s h1 h2; exact h s (by rw [h1, h2])), spreadAll]
  simp [outAll, XNode.out, cdata_blank hn]

theorem teiString_out (indent : Bool) (nodes : List TeiNode) : ∃ p s q, Prolog p s ∧ (q = [] ∨ q = ['\n']) ∧
    teiString indent nodes = p ++ ((XNode.elem (S "cx:apparatus") teiAttrs (teiSpread indent (nodes.map teiChild))).out (S "/>") ++ q) := by
  have hb1 : Blank ['\t'] := by intro c hc; simp at hc; simp [hc]
  have hb2 : Blank ['\n'] := by intro c hc; simp at hc; simp [hc]
  have hb0 : Blank [] := by intro c hc; cases hc
  unfold teiString
  rw [teiTree_eq]
  generalize nodes.map teiChild = l
  cases indent with
  | false =>
    refine ⟨_, [], [], .inr (.inl ⟨rfl, rfl⟩), .inl rfl, ?_⟩
    rw [if_neg (by decide), writexml_out hb0 hb0 _ _ hb0]
    congr 1
    unfold teiSpread
    split
    · rw [XNode.spread]; simp [outAll, XNode.out]
    · rw [XNode.spread]; simp [outAll, XNode.out]
    · rename_i h1 h2
      cases l with
      | nil => exact absurd rfl h1
      | cons x l => rw [out_spread _ _ _ _ _ hb0 x l h2]; rfl
  | true =>
    refine ⟨_, ['\n'], ['\n'], .inr (.inr ⟨rfl, rfl⟩), .inr rfl, ?_⟩
    rw [if_pos rfl, writexml_out hb1 hb2 _ _ hb0]
    congr 1
    unfold teiSpread
    split
    · rw [XNode.spread]; simp [outAll, XNode.out, cdata_blank hb2]
    · rw [XNode.spread]; simp [outAll, XNode.out, cdata_blank hb2]
    · rename_i h1 h2
      cases l with
      | nil => exact absurd rfl h1
      | cons x l => rw [out_spread _ _ _ _ _ hb2 x l h2]; rfl

theorem teiSpread_good (indent : Bool) (l : List XNode) (h : goodAll l) : goodAll (teiSpread indent l) := by
  unfold teiSpread
  split
  · exact h
  · exact h
  · rw [goodAll, goodAll_append]
    exact ⟨by simp [XNode.good], spreadAll_good _ _ _ _ h, by simp [goodAll, XNode.good]⟩

theorem blank_indent (indent : Bool) (c : Char) (hc : c = ' ' ∨ c = '\t' ∨ c = '\n') : Blank (if indent then [c] else []) := by
  cases indent with
  | false => intro c hc; cases hc
  | true => intro d hd; rw [if_pos rfl, List.mem_singleton] at hd; rw [hd]; exact hc

theorem teiSpread_legal (indent : Bool) (l : List XNode) : legalAll (teiSpread indent l) ↔ legalAll l := by
  unfold teiSpread
  split
  · rfl
  · rfl
  · have h1 := blank_indent indent '\t' (by simp)
    have h2 := blank_indent indent '\n' (by simp)
    rw [legalAll, legalAll_append, spreadAll_legal h1 h2 _ _ h1, XNode.legal]
    simp [h2.legal, legalAll, XNode.legal]

theorem root_good (indent : Bool) (nodes : List TeiNode) : (XNode.elem (S "cx:apparatus") teiAttrs (teiSpread indent (nodes.map teiChild))).good := by
  rw [XNode.good]
  refine ⟨by decide, by decide, by decide, teiSpread_good _ _ ((goodAll_iff _).mpr ?_)⟩
  intro x hx
  obtain ⟨n, _, rfl⟩ := List.mem_map.mp hx
  exact teiChild_good n

theorem root_legal (indent : Bool) (nodes : List TeiNode) : (XNode.elem (S "cx:apparatus") teiAttrs (teiSpread indent (nodes.map teiChild))).legal ↔
    ∀ n ∈ nodes, ∀ c ∈ teiChars n, xmlLegal c = true := by
  rw [XNode.legal, teiSpread_legal, legalAll_iff]
  constructor
  · rintro ⟨_, h⟩ n hn
    exact (teiChild_legal n).mp (h _ (List.mem_map.mpr ⟨n, hn, rfl⟩))
  · intro h
    refine ⟨by decide, ?_⟩
    intro x hx
    obtain ⟨n, hn, rfl⟩ := List.mem_map.mp hx
    exact (teiChild_legal n).mpr (h n hn)

/-- What is read from the TEI output. -/
theorem readXml_tei (indent : Bool) (nodes : List TeiNode) :
    ((∀ n ∈ nodes, ∀ c ∈ teiChars n, xmlLegal c = true) → readXml (teiString indent nodes) =
      some (.elem (S "cx:apparatus") teiAttrs (linesNodes (joinTexts (teiSpread indent (nodes.map teiChild)) [])))) ∧
    ((¬ ∀ n ∈ nodes, ∀ c ∈ teiChars n, xmlLegal c = true) → readXml (teiString indent nodes) = none) := by
  obtain ⟨p, s, q, hp, hq, e⟩ := teiString_out indent nodes
  rw [e, ← root_legal indent]
  exact readXml_doc (.inr rfl) hp hq _ _ _ (root_good indent nodes)

theorem joinTexts_append_nil : ∀ (l : List XNode) (s : Str), joinTexts (l ++ [.text []]) s = joinTexts l s
  | [], s => by simp [joinTexts]
  | .text t :: l, s => by rw [List.cons_append, joinTexts, joinTexts, joinTexts_append_nil l]
  | .elem n as l' :: l, s => by rw [List.cons_append, joinTexts, joinTexts, joinTexts_append_nil l]

mutual
theorem joinTexts_spread : ∀ (x : XNode) (r : List XNode) (s : Str), joinTexts (x.spread [] [] [] ++ r) s = joinTexts (x :: r) s
  | .text t, r, s => by simp [XNode.spread, joinTexts]
  | .elem n as [], r, s => by simp [XNode.spread, joinTexts]
  | .elem n as [.text t], r, s => by simp [XNode.spread, joinTexts]
  | .elem n as [.elem n' as' l'], r, s => by
    rw [XNode.spread.eq_4 _ _ _ _ _ _ _ (by simp)]
    simp only [List.cons_append, List.nil_append, joinTexts, List.append_nil]
    rw [joinTexts_append_nil, joinTexts_spread (.elem n' as' l'), joinTexts, joinTexts_spreadAll []]
    simp [joinTexts]
  | .elem n as (x :: y :: l), r, s => by
    rw [XNode.spread.eq_4 _ _ _ _ _ _ _ (by simp)]
    simp only [List.cons_append, List.nil_append, joinTexts, List.append_nil]
    rw [joinTexts_append_nil, joinTexts_spread x]
    have : joinTexts (x :: spreadAll [] [] (y :: l) []) [] = joinTexts (x :: y :: l) [] := by
      cases x with
      | text t => rw [joinTexts, joinTexts_spreadAll (y :: l), joinTexts]
      | elem n' as' l' => rw [joinTexts, joinTexts_spreadAll (y :: l), joinTexts]
    rw [this]
theorem joinTexts_spreadAll : ∀ (l : List XNode) (s : Str), joinTexts (spreadAll [] [] l []) s = joinTexts l s
  | [], s => by rw [spreadAll]
  | .text t :: l, s => by rw [spreadAll, joinTexts_spread (.text t), joinTexts, joinTexts_spreadAll l, joinTexts]
  | .elem n as l' :: l, s => by rw [spreadAll, joinTexts_spread (.elem n as l'), joinTexts, joinTexts_spreadAll l, joinTexts]
end

/-- C73, TEI without indentation: the text of the TEI output reads back as an apparatus that has the texts and `app` elements of the output as
children, with exactly the given `wit` attributes and with the given texts up to line ends; texts that follow on each other are
one text. -/
theorem C73_tei (nodes : List TeiNode) (h : ∀ n ∈ nodes, ∀ c ∈ teiChars n, xmlLegal c = true) :
    readXml (teiString false nodes) = some (linesNode (.elem (S "cx:apparatus")
      [(S "xmlns:cx", S "http://interedition.eu/collatex/ns/1.0"), (S "xmlns", S "http://www.tei-c.org/ns/1.0")]
      (joinTexts (nodes.map teiChild) []))) := by
  rw [(readXml_tei false nodes).1 h, linesNode]
  have : joinTexts (teiSpread false (nodes.map teiChild)) [] = joinTexts (nodes.map teiChild) [] := by
    unfold teiSpread
    split
    · rename_i e; rw [e]
    · rename_i e; rw [e]
    · rw [joinTexts]
      simp only [Bool.false_eq_true, if_false, List.append_nil]
      rw [joinTexts_append_nil, joinTexts_spreadAll]
  rw [this]
  rfl

/-- C73, TEI, with or without indentation: the text is not a well-formed document if and only if a siglum or a reading has a character that is
not allowed in XML. -/
theorem C73_tei_wellformed (indent : Bool) (nodes : List TeiNode) :
    readXml (teiString indent nodes) = none ↔ ∃ n ∈ nodes, ∃ c ∈ teiChars n, xmlLegal c = false := by
  constructor
  · intro h
    refine Classical.byContradiction (fun hc => ?_)
    rw [(readXml_tei indent nodes).1 (fun n hn c hcm => by
      cases he : xmlLegal c with
      | true => rfl
      | false => exact absurd ⟨n, hn, c, hcm, he⟩ hc)] at h
    cases h
  · rintro ⟨n, hn, c, hc, hf⟩
    refine (readXml_tei indent nodes).2 (fun h => ?_)
    rw [h n hn c hc] at hf; cases hf

/-! ### What the apparatus says -/

theorem ownText_join : ∀ (l : List XNode) (s : Str), ownText (joinTexts l s) = s ++ ownText l
  | [], s => by
    rw [joinTexts]
    by_cases h : s = [] <;> simp [ownText, h]
  | .text t :: l, s => by rw [joinTexts, ownText_join l]; simp [ownText]
  | .elem n as l' :: l, s => by
    have := ownText_join l []
    rw [joinTexts]
    unfold ownText at this ⊢
    rw [List.flatMap_append, List.flatMap_cons, List.flatMap_cons, this]
    by_cases h : s = [] <;> simp [h]

theorem rdgText_text (σ s : Str) : rdgText σ (.text s) = [] := by rw [rdgText]; simp

theorem rdgText_join (σ : Str) (n : Str) (as : List (Str × Str)) (l : List XNode) :
    rdgText σ (.elem n as (joinTexts l [])) = rdgText σ (.elem n as l) := by
  match as with
  | [] => rw [rdgText.eq_2 _ _ (by simp), rdgText.eq_2 _ _ (by simp)]
  | [(k, v)] => rw [rdgText, rdgText, ownText_join, List.nil_append]
  | _ :: _ :: _ => rw [rdgText.eq_2 _ _ (by simp), rdgText.eq_2 _ _ (by simp)]

theorem rdgTexts_join (σ : Str) : ∀ (l : List XNode) (s : Str), (joinTexts l s).flatMap (rdgText σ) = l.flatMap (rdgText σ)
  | [], s => by
    rw [joinTexts]
    by_cases h : s = [] <;> simp [h, rdgText_text]
  | .text t :: l, s => by rw [joinTexts, rdgTexts_join σ l, List.flatMap_cons, rdgText_text, List.nil_append]
  | .elem n as l' :: l, s => by
    rw [joinTexts, List.flatMap_append, List.flatMap_cons, List.flatMap_cons, rdgTexts_join σ l, rdgText_join]
    by_cases h : s = [] <;> simp [h, rdgText_text]

theorem childTexts_join (σ : Str) : ∀ (l : List XNode) (s : Str), (joinTexts l s).flatMap (childText σ) = s ++ l.flatMap (childText σ)
  | [], s => by
    rw [joinTexts]
    by_cases h : s = [] <;> simp [h, childText]
  | .text t :: l, s => by rw [joinTexts, childTexts_join σ l, List.flatMap_cons, childText, List.append_assoc]
  | .elem n as l' :: l, s => by
    rw [joinTexts, List.flatMap_append, List.flatMap_cons, List.flatMap_cons, childTexts_join σ l, childText, childText, rdgTexts_join]
    by_cases h : s = [] <;> simp [h, childText]

/-- White space: line ends, tab and blank are. -/
def LineSpace (cc : CharClass) : Prop := cc.space ' ' = true ∧ cc.space '\t' = true ∧ cc.space '\n' = true ∧ cc.space '\r' = true

theorem squeeze_lines {cc : CharClass} (hc : LineSpace cc) : ∀ s : Str, squeeze cc (xmlLines s) = squeeze cc s := by
  intro s
  have key : ∀ k : Nat, ∀ s : Str, s.length ≤ k → squeeze cc (xmlLines s) = squeeze cc s := by
    intro k
    induction k with
    | zero =>
      intro s hs
      have : s = [] := List.length_eq_zero_iff.mp (by omega)
      subst this; rfl
    | succ k ih =>
      intro s hs
      cases s with
      | nil => rfl
      | cons c s =>
        by_cases hr : c = '\r'
        · subst hr
          cases s with
          | nil => simp [xmlLines, squeeze, hc.2.2.1, hc.2.2.2]
          | cons d s =>
            by_cases hd : d = '\n'
            · subst hd
              have := ih s (by simp at hs; omega)
              rw [xmlLines.eq_2]
              simp only [squeeze] at this ⊢
              simp only [List.filter_cons, hc.2.2.1, hc.2.2.2, this]
              simp
            · have := ih (d :: s) (by simpa using hs)
              rw [xmlLines_cr (by simp [hd])]
              simp only [squeeze] at this ⊢
              rw [List.filter_cons_of_neg (by simp [hc.2.2.1]), this, List.filter_cons_of_neg (a := '\r') (by simp [hc.2.2.2])]
        · have := ih s (by simpa using hs)
          rw [xmlLines_cons hr]
          simp only [squeeze] at this ⊢
          rw [List.filter_cons, List.filter_cons, this]
  exact key s.length s (Nat.le_refl _)

theorem squeeze_ownText {cc : CharClass} (hc : LineSpace cc) : ∀ l : List XNode, squeeze cc (ownText (linesNodes l)) = squeeze cc (ownText l)
  | [] => by rw [linesNodes]
  | .text s :: l => by
    have := squeeze_ownText hc l
    rw [linesNodes, linesNode]
    unfold ownText at this ⊢
    rw [List.flatMap_cons, List.flatMap_cons, squeeze_append, squeeze_append, this, squeeze_lines hc]
  | .elem n as l' :: l => by
    have := squeeze_ownText hc l
    rw [linesNodes, linesNode]
    unfold ownText at this ⊢
    rw [List.flatMap_cons, List.flatMap_cons, squeeze_append, squeeze_append, this]

theorem squeeze_rdgText {cc : CharClass} (hc : LineSpace cc) (σ : Str) (x : XNode) :
    squeeze cc (rdgText σ (linesNode x)) = squeeze cc (rdgText σ x) := by
  match x with
  | .text s => rw [linesNode, rdgText_text, rdgText_text]
  | .elem n [] l => rw [linesNode, rdgText.eq_2 _ _ (by simp), rdgText.eq_2 _ _ (by simp)]
  | .elem n (_ :: _ :: _) l => rw [linesNode, rdgText.eq_2 _ _ (by simp), rdgText.eq_2 _ _ (by simp)]
  | .elem n [(k, v)] l =>
    rw [linesNode, rdgText, rdgText]
    split
    · exact squeeze_ownText hc l
    · rfl

theorem squeeze_rdgTexts {cc : CharClass} (hc : LineSpace cc) (σ : Str) : ∀ l : List XNode,
    squeeze cc ((linesNodes l).flatMap (rdgText σ)) = squeeze cc (l.flatMap (rdgText σ))
  | [] => by rw [linesNodes]
  | x :: l => by
    rw [linesNodes, List.flatMap_cons, List.flatMap_cons, squeeze_append, squeeze_append, squeeze_rdgTexts hc σ l, squeeze_rdgText hc]

theorem squeeze_childTexts {cc : CharClass} (hc : LineSpace cc) (σ : Str) : ∀ l : List XNode,
    squeeze cc ((linesNodes l).flatMap (childText σ)) = squeeze cc (l.flatMap (childText σ))
  | [] => by rw [linesNodes]
  | .text s :: l => by
    rw [linesNodes, linesNode, List.flatMap_cons, List.flatMap_cons, squeeze_append, squeeze_append, squeeze_childTexts hc σ l, childText,
      childText, squeeze_lines hc]
  | .elem n as l' :: l => by
    rw [linesNodes, linesNode, List.flatMap_cons, List.flatMap_cons, squeeze_append, squeeze_append, squeeze_childTexts hc σ l, childText,
      childText]
    split
    · rw [squeeze_rdgTexts hc]
    · rfl

theorem squeeze_of_blank {cc : CharClass} (hc : LineSpace cc) {s : Str} (h : Blank s) : squeeze cc s = [] := by
  unfold squeeze
  rw [List.filter_eq_nil_iff]
  intro c hm
  rcases h c hm with rfl | rfl | rfl
  · simp [hc.1]
  · simp [hc.2.1]
  · simp [hc.2.2.1]

/-- The readings of an `app`, with white space between them. -/
theorem spreadAll_rdgs (a nl : Str) (rdgs : List Rdg) (ind : Str) :
    spreadAll a nl (rdgs.map fun r => XNode.elem (S "rdg") [(S "wit", r.wit)] [.text r.text]) ind =
      rdgs.flatMap fun r => [.text ind, XNode.elem (S "rdg") [(S "wit", r.wit)] [.text r.text], .text nl] := by
  induction rdgs with
  | nil => rw [List.map_nil, spreadAll]; rfl
  | cons r rdgs ih => rw [List.map_cons, spreadAll, ih, XNode.spread, List.flatMap_cons]

/-- An `app` with white space. -/
theorem spread_app (a nl : Str) (rdgs : List Rdg) (ind : Str) : ∃ l,
    (teiChild (.app rdgs)).spread a nl ind = [.text ind, .elem (S "app") [] l, .text nl] ∧
    ((rdgs = [] ∧ l = []) ∨ l = .text nl :: ((rdgs.flatMap fun r =>
      [.text (ind ++ a), XNode.elem (S "rdg") [(S "wit", r.wit)] [.text r.text], .text nl]) ++ [.text ind])) := by
  rw [teiChild]
  cases rdgs with
  | nil => exact ⟨[], by rw [List.map_nil, XNode.spread], .inl ⟨rfl, rfl⟩⟩
  | cons r rdgs =>
    refine ⟨_, ?_, .inr rfl⟩
    rw [← spreadAll_rdgs, List.map_cons, XNode.spread.eq_4 _ _ _ _ _ _ _ (by simp), spreadAll]

theorem childText_spread {cc : CharClass} (hc : LineSpace cc) (σ : Str) {a nl ind : Str} (hn : Blank nl) (hi : Blank ind) (n : TeiNode) :
    squeeze cc (((teiChild n).spread a nl ind).flatMap (childText σ)) = squeeze cc (teiText σ [n]) := by
  cases n with
  | text s =>
    rw [teiChild, XNode.spread]
    simp only [List.flatMap_cons, List.flatMap_nil, List.append_nil, childText, squeeze_append, squeeze_of_blank hc hi, squeeze_of_blank hc hn,
      List.nil_append]
    simp [teiText]
  | app rdgs =>
    obtain ⟨l, e, hl⟩ := spread_app a nl rdgs ind
    rw [e]
    simp only [List.flatMap_cons, List.flatMap_nil, List.append_nil, childText, squeeze_append, squeeze_of_blank hc hi, squeeze_of_blank hc hn,
      List.nil_append, if_true]
    have key : ∀ rdgs : List Rdg, ((rdgs.flatMap fun r =>
        [.text (ind ++ a), XNode.elem (S "rdg") [(S "wit", r.wit)] [.text r.text], .text nl]).flatMap (rdgText σ)) =
        rdgs.flatMap (fun r => if Lists r σ then r.text else []) := by
      intro rdgs
      induction rdgs with
      | nil => rfl
      | cons r rdgs ih =>
        rw [List.flatMap_cons, List.flatMap_append, ih, List.flatMap_cons]
        simp only [List.flatMap_cons, List.flatMap_nil, rdgText_text, List.nil_append, List.append_nil]
        have h1 : rdgText σ (.elem (S "rdg") [(S "wit", r.wit)] [.text r.text]) = if Lists r σ then r.text else [] := by
          rw [rdgText, show ownText [XNode.text r.text] = r.text by simp [ownText]]
          by_cases hL : Lists r σ
          · rw [if_pos hL, if_pos ⟨rfl, rfl, hL⟩]
          · rw [if_neg hL, if_neg (fun h => hL h.2.2)]
        rw [h1]
    rcases hl with ⟨rfl, rfl⟩ | rfl
    · rfl
    · rw [List.flatMap_cons, rdgText_text, List.nil_append, List.flatMap_append, key]
      simp [rdgText_text, teiText]

theorem childTexts_spread {cc : CharClass} (hc : LineSpace cc) (σ : Str) {a nl ind : Str} (hn : Blank nl) (hi : Blank ind) :
    ∀ nodes : List TeiNode, squeeze cc ((spreadAll a nl (nodes.map teiChild) ind).flatMap (childText σ)) = squeeze cc (teiText σ nodes)
  | [] => by rw [List.map_nil, spreadAll]; rfl
  | n :: nodes => by
    rw [List.map_cons, spreadAll, List.flatMap_append, squeeze_append, childTexts_spread hc σ hn hi nodes, childText_spread hc σ hn hi n,
      ← squeeze_append, ← teiText_append]
    rfl

/-- C73, TEI, with or without indentation: what the apparatus that is read from the output says about a witness is, up to white space, what
the output says. -/
theorem C73_tei_text (cc : CharClass) (hc : LineSpace cc) (indent : Bool) (nodes : List TeiNode)
    (h : ∀ n ∈ nodes, ∀ c ∈ teiChars n, xmlLegal c = true) :
    ∃ root, readXml (teiString indent nodes) = some root ∧ ∀ σ, squeeze cc (apparatusText σ root) = squeeze cc (teiText σ nodes) := by
  refine ⟨_, (readXml_tei indent nodes).1 h, ?_⟩
  intro σ
  rw [apparatusText, squeeze_childTexts hc, childTexts_join, List.nil_append]
  unfold teiSpread
  split
  · rename_i e
    rw [List.map_eq_nil_iff.mp e]; rfl
  · rename_i s e
    obtain ⟨n, l, rfl, hn, hl⟩ := List.map_eq_cons_iff.mp e
    rw [List.map_eq_nil_iff.mp hl]
    cases n with
    | text t => cases hn; simp [childText, teiText]
    | app r => cases hn
  · have h1 := blank_indent indent '\t' (by simp)
    have h2 := blank_indent indent '\n' (by simp)
    rw [List.flatMap_cons, List.flatMap_append, squeeze_append, squeeze_append, childTexts_spread hc σ h2 h1, childText, squeeze_of_blank hc h2]
    simp [childText, squeeze]

/-! ### The readings of the apparatus -/

theorem rdgEntry_text (s : Str) : rdgEntry (.text s) = none := by rw [rdgEntry]; simp

theorem rdgEntry_join (n : Str) (as : List (Str × Str)) (l : List XNode) : rdgEntry (.elem n as (joinTexts l [])) = rdgEntry (.elem n as l) := by
  match as with
  | [] => rw [rdgEntry.eq_2 _ (by simp), rdgEntry.eq_2 _ (by simp)]
  | [(k, v)] => rw [rdgEntry, rdgEntry, ownText_join, List.nil_append]
  | _ :: _ :: _ => rw [rdgEntry.eq_2 _ (by simp), rdgEntry.eq_2 _ (by simp)]

/-- The children of an `app` as read, with one text at most in each reading. -/
theorem rdgs_read (a nl ind : Str) : ∀ (rdgs : List Rdg) (s : Str),
    (linesNodes (joinTexts ((rdgs.flatMap fun r => [.text (ind ++ a), XNode.elem (S "rdg") [(S "wit", r.wit)] [.text r.text], .text nl]) ++
      [.text ind]) s)).filterMap rdgEntry = rdgs.map fun r => (r.wit, xmlLines r.text)
  | [], s => by
    rw [List.flatMap_nil, List.nil_append, joinTexts, joinTexts]
    split <;> simp [linesNodes, linesNode, rdgEntry_text]
  | r :: rdgs, s => by
    rw [List.flatMap_cons]
    simp only [List.cons_append, List.nil_append, joinTexts]
    rw [linesNodes_append, List.filterMap_append, linesNodes, List.filterMap_cons, rdgs_read a nl ind rdgs, linesNode]
    have h1 : rdgEntry (.elem (S "rdg") [(S "wit", r.wit)] (linesNodes (if r.text = [] then [] else [XNode.text r.text]))) =
        some (r.wit, xmlLines r.text) := by
      rw [rdgEntry, if_pos ⟨rfl, rfl⟩]
      by_cases h : r.text = []
      · simp [h, linesNodes, ownText, xmlLines]
      · simp [h, linesNodes, linesNode, ownText]
    rw [h1]
    split <;> simp [linesNodes, linesNode, rdgEntry_text]

theorem appEntry_app (a nl ind : Str) (rdgs : List Rdg) : ∃ l, (teiChild (.app rdgs)).spread a nl ind = [.text ind, .elem (S "app") [] l, .text nl] ∧
    appEntry (.elem (S "app") [] (linesNodes (joinTexts l []))) = some (rdgs.map fun r => (r.wit, xmlLines r.text)) := by
  obtain ⟨l, e, hl⟩ := spread_app a nl rdgs ind
  refine ⟨l, e, ?_⟩
  rw [appEntry, if_pos rfl]
  rcases hl with ⟨rfl, rfl⟩ | rfl
  · simp [joinTexts, linesNodes]
  · rw [joinTexts, rdgs_read]

theorem apps_read (a nl ind : Str) : ∀ (nodes : List TeiNode) (s : Str),
    (linesNodes (joinTexts (spreadAll a nl (nodes.map teiChild) ind ++ [.text []]) s)).filterMap appEntry =
      nodes.filterMap (fun n => match n with | .text _ => none | .app rdgs => some (rdgs.map fun r => (r.wit, xmlLines r.text)))
  | [], s => by
    rw [List.map_nil, spreadAll, joinTexts_append_nil, joinTexts]
    split <;> simp [linesNodes, linesNode, appEntry]
  | .text t :: nodes, s => by
    rw [List.map_cons, spreadAll, teiChild, XNode.spread, List.append_assoc]
    show (linesNodes (joinTexts (.text (ind ++ t ++ nl) :: _) s)).filterMap appEntry = _
    rw [joinTexts]
    show (linesNodes (joinTexts (spreadAll a nl (nodes.map teiChild) ind ++ [.text []]) _)).filterMap appEntry = _
    rw [apps_read a nl ind nodes]
    rfl
  | .app rdgs :: nodes, s => by
    obtain ⟨l, e, hl⟩ := appEntry_app a nl ind rdgs
    rw [List.map_cons, spreadAll, e]
    simp only [List.cons_append, List.nil_append, joinTexts]
    rw [linesNodes_append, List.filterMap_append, linesNodes, List.filterMap_cons, apps_read a nl ind nodes, linesNode, hl]
    split <;> simp [linesNodes, linesNode, appEntry]

/-- C73, TEI, with or without indentation: the apparatus that is read from the output has the `app` elements of the output, with the same
readings: exactly the given `wit` attributes and the given texts up to line ends. -/
theorem C73_tei_readings (indent : Bool) (nodes : List TeiNode) (h : ∀ n ∈ nodes, ∀ c ∈ teiChars n, xmlLegal c = true) :
    ∃ root, readXml (teiString indent nodes) = some root ∧ apparatusApps root =
      nodes.filterMap (fun n => match n with | .text _ => none | .app rdgs => some (rdgs.map fun r => (r.wit, xmlLines r.text))) := by
  refine ⟨_, (readXml_tei indent nodes).1 h, ?_⟩
  rw [apparatusApps]
  unfold teiSpread
  split
  · rename_i e
    rw [List.map_eq_nil_iff.mp e]
    simp [joinTexts, linesNodes]
  · rename_i s e
    obtain ⟨n, l, rfl, hn, hl⟩ := List.map_eq_cons_iff.mp e
    rw [List.map_eq_nil_iff.mp hl]
    cases n with
    | text t =>
      rw [joinTexts, joinTexts]
      split <;> simp [linesNodes, linesNode, appEntry]
    | app r => cases hn
  · rw [joinTexts, apps_read]

/-! ### The text of the witnesses -/

/-- What holds of the characters of the sigla and texts of the witnesses holds of the characters of the columns. -/
theorem column_chars (env : Env) (hts : TopoSpec env.topo) (ws : List Witness) (hv : Valid ws)
    (hs : ∀ w ∈ ws, w.sigil ≠ []) (o : Opts) (ho : ExactMatching o) (t : Table) (h : collateTable env ws o = .ok t) (hx : HasTexts ws)
    (P : Char → Prop) (hP : ∀ w ∈ ws, (∀ c ∈ w.sigil, P c) ∧ ∀ s, TextOf w.tokens s → ∀ c ∈ s, P c) :
    ∀ c ∈ t.columns, ∀ p ∈ c.tokens, (∀ x ∈ p.1, P x) ∧ ∀ s, TextOf p.2 s → ∀ x ∈ s, P x := by
  obtain ⟨G, hh⟩ := goodTable_of env hts ws hv hs o ho t h
  intro c hc p hp
  obtain ⟨hnd, hsub⟩ := G.keys c hc
  have hσ := hsub p.1 (List.mem_map.mpr ⟨p, hp, rfl⟩)
  obtain ⟨r, hr, hrp⟩ := List.mem_map.mp hσ
  obtain ⟨k, hk⟩ := List.getElem?_of_mem hr
  have hk' : (t.rows.map Row.header)[k]? = some r.header := by rw [List.getElem?_map, hk]; rfl
  rw [hh, List.getElem?_map] at hk'
  obtain ⟨w, hw, hwr⟩ := Option.map_eq_some_iff.mp hk'
  have hwm := List.mem_of_getElem? hw
  obtain ⟨xs, hxs, htext⟩ := row_texts env hts ws hv o ho t h hx hw (hs w hwm) hk
  have hcell : some p.2 ∈ r.cells := by
    rw [G.cells r hr]
    exact List.mem_map.mpr ⟨c, hc, by rw [hrp]; exact (dget_iff_mem hnd).mpr hp⟩
  obtain ⟨j, hj⟩ := List.getElem?_of_mem hcell
  obtain ⟨hjl, hje⟩ := List.getElem?_eq_some_iff.mp hj
  have hjx : j < xs.length := by rw [← hxs.length_eq]; exact hjl
  have := (List.forall₂_iff_get.mp hxs).2 j hjl hjx
  simp only [List.get_eq_getElem, hje] at this
  refine ⟨?_, ?_⟩
  · rw [← hrp, ← hwr]; exact (hP w hwm).1
  · intro s hs' x hxm
    have e : s = xs[j] := TextOf.unique hs' this
    exact (hP w hwm).2 _ htext x (List.mem_flatten.mpr ⟨xs[j], List.getElem_mem hjx, e ▸ hxm⟩)

theorem mem_witAttr : ∀ {l : List Str} {c : Char}, c ∈ witAttr l → c = '#' ∨ c = ' ' ∨ ∃ σ ∈ l, c ∈ σ
  | [], c, h => by cases h
  | [σ], c, h => by
    rw [witAttr, List.mem_cons] at h
    rcases h with h | h
    · exact .inl h
    · exact .inr (.inr ⟨σ, by simp, h⟩)
  | σ :: τ :: l, c, h => by
    rw [witAttr.eq_3 _ _ (by simp), List.mem_append, List.mem_cons, List.mem_cons] at h
    rcases h with (h | h) | h | h
    · exact .inl h
    · exact .inr (.inr ⟨σ, by simp, h⟩)
    · exact .inr (.inl h)
    · rcases mem_witAttr h with h | h | ⟨ρ, hρ, h⟩
      · exact .inl h
      · exact .inr (.inl h)
      · exact .inr (.inr ⟨ρ, by simp at hρ ⊢; tauto, h⟩)

theorem mem_strip {cc : CharClass} {s : Str} {c : Char} (h : c ∈ strip cc s) : c ∈ s := by
  obtain ⟨⟨a, b, e, _⟩, _⟩ := strip_spec cc s
  rw [e]
  simp [h]

theorem tei_chars (cc : CharClass) {t : Table} {nodes : List TeiNode} (h : exportTei cc t = .ok nodes) (P : Char → Prop) (h1 : P '#') (h2 : P ' ')
    (hP : ∀ c ∈ t.columns, ∀ p ∈ c.tokens, (∀ x ∈ p.1, P x) ∧ ∀ s, TextOf p.2 s → ∀ x ∈ s, P x) :
    ∀ n ∈ nodes, ∀ x ∈ teiChars n, P x := by
  obtain ⟨pieces, rfl, hF⟩ := teiColumns_ok cc _ h
  intro n hn x hx
  obtain ⟨q, hq, hn⟩ := List.mem_flatMap.mp hn
  rcases List.mem_cons.mp hn with rfl | hn
  · obtain ⟨i, hi⟩ := List.getElem?_of_mem hq
    obtain ⟨hil, hie⟩ := List.getElem?_eq_some_iff.mp hi
    have hic : i < t.columns.length := by rw [hF.length_eq]; exact hil
    obtain ⟨d, hd, hm⟩ := (List.forall₂_iff_get.mp hF).2 i hic hil
    simp only [List.get_eq_getElem, hie] at hd hm
    have hcm : t.columns[i] ∈ t.columns := List.getElem_mem hic
    obtain ⟨rs, hR, hval, hnd, hkeys, _⟩ := teiGroup_ok cc hd
    have hitems : ∀ y ∈ rs, (∀ x ∈ y.1, P x) ∧ ∀ x ∈ y.2, P x := by
      intro y hy
      obtain ⟨j, hj⟩ := List.getElem?_of_mem hy
      obtain ⟨hjl, hje⟩ := List.getElem?_eq_some_iff.mp hj
      have hjs : j < (sortedItems t.columns[i].tokens).length := by rw [hR.length_eq]; exact hjl
      obtain ⟨e1, e2⟩ := (List.forall₂_iff_get.mp hR).2 j hjs hjl
      simp only [List.get_eq_getElem, hje] at e1 e2
      obtain ⟨a, b⟩ := hP _ hcm _ ((sortedItems_perm _).mem_iff.mp (List.getElem_mem hjs))
      exact ⟨by rw [e1]; exact a, b _ e2⟩
    have hnd' : (d.map Prod.fst).Nodup := hnd (by simp)
    have hdict : ∀ y ∈ d, (∀ x ∈ y.1, P x) ∧ ∀ x ∈ witAttr y.2, P x := by
      intro y hy
      refine ⟨?_, ?_⟩
      · intro x hx
        rcases (hkeys y.1).mp (List.mem_map.mpr ⟨y, hy, rfl⟩) with hh | ⟨z, hz, he⟩
        · cases hh
        · rw [← he] at hx
          exact (hitems z hz).2 x (mem_strip hx)
      · intro x hx
        rcases mem_witAttr hx with rfl | rfl | ⟨σ, hσ, hx⟩
        · exact h1
        · exact h2
        · have := hval y.1
          rw [(dget_iff_mem hnd').mpr hy] at this
          simp only [Option.getD_some] at this
          rw [this] at hσ
          simp only [dget, Option.getD_none, List.nil_append] at hσ
          obtain ⟨z, hz, rfl⟩ := List.mem_map.mp hσ
          exact (hitems z (List.mem_of_mem_filter hz)).1 x hx
    rw [hm] at hx
    unfold teiMain at hx
    have happ : ∀ x ∈ teiChars (.app (d.map (fun p => ⟨witAttr p.2, p.1⟩))), P x := by
      intro x hx
      rw [teiChars] at hx
      obtain ⟨r, hr, hx⟩ := List.mem_flatMap.mp hx
      obtain ⟨y, hy, rfl⟩ := List.mem_map.mp hr
      rcases List.mem_append.mp hx with hx | hx
      · exact (hdict y hy).2 x hx
      · exact (hdict y hy).1 x hx
    split at hx
    · rename_i k v
      split at hx
      · exact (hdict (k, v) (by simp)).1 x hx
      · exact happ x hx
    · exact happ x hx
  · cases hb : q.2 with
    | false => rw [hb] at hn; cases hn
    | true =>
      rw [hb] at hn
      rw [List.mem_singleton.mp hn, teiChars, List.mem_singleton] at hx
      rw [hx]; exact h2

/-- C73, XML output of a valid collation (exact matching) whose sigla and tokens have only characters that XML allows: well-formed, and with
the readings of the table. -/
theorem C73_xml_of_collation (env : Env) (hts : TopoSpec env.topo) (ws : List Witness) (hv : Valid ws)
    (hs : ∀ w ∈ ws, w.sigil ≠ []) (hx : HasTexts ws)
    (hl : ∀ w ∈ ws, (∀ c ∈ w.sigil, xmlLegal c = true) ∧ ∀ s, TextOf w.tokens s → ∀ c ∈ s, xmlLegal c = true) (o : Opts) (ho : ExactMatching o) :
    ∃ t apps, collateTable env ws o = .ok t ∧ collate env ws { o with output := S "xml" } = .ok (.xml apps) ∧ GoodTable t ∧
      exportXml t.columns = .ok apps ∧
      readXml (xmlString apps) = some (.elem (S "root") [] (apps.map fun rdgs => .elem (S "app") [] (rdgs.map fun r =>
        .elem (S "rdg") [(S "wit", r.wit)] (if r.text = [] then [] else [.text (xmlLines r.text)])))) := by
  obtain ⟨t, apps, h1, h2, G, h3⟩ := C37_xml_of_collation env hts ws hv hs hx o ho
  refine ⟨t, apps, h1, h2, G, h3, C73_xml apps ?_⟩
  have hc := column_chars env hts ws hv hs o ho t h1 hx (fun c => xmlLegal c = true) hl
  have htexts := column_texts env hts ws hv hs o ho t h1 hx
  have hF := exportXml_ok h3
  intro rdgs hr r hm x hxm
  obtain ⟨i, hi⟩ := List.getElem?_of_mem hr
  obtain ⟨hil, hie⟩ := List.getElem?_eq_some_iff.mp hi
  have hic : i < t.columns.length := by rw [hF.length_eq]; exact hil
  have hR := (List.forall₂_iff_get.mp hF).2 i hic hil
  simp only [List.get_eq_getElem, hie] at hR
  obtain ⟨j, hj⟩ := List.getElem?_of_mem hm
  obtain ⟨hjl, hje⟩ := List.getElem?_eq_some_iff.mp hj
  have hjs : j < (sortedItems t.columns[i].tokens).length := by rw [hR.length_eq]; exact hjl
  obtain ⟨e1, e2⟩ := (List.forall₂_iff_get.mp hR).2 j hjs hjl
  simp only [List.get_eq_getElem, hje] at e1 e2
  have hpm := (sortedItems_perm _).mem_iff.mp (List.getElem_mem hjs)
  obtain ⟨a, b⟩ := hc _ (List.getElem_mem hic) _ hpm
  obtain ⟨s, hs'⟩ := htexts _ (List.getElem_mem hic) _ hpm
  rcases List.mem_append.mp hxm with hxm | hxm
  · rw [e1] at hxm
    rcases List.mem_cons.mp hxm with rfl | hxm
    · decide
    · exact a x hxm
  · have h6 := xmlText_iff.mpr e2
    rw [xmlText_iff.mpr (printedText_of_textOf hs')] at h6
    rw [← Except.ok.inj h6] at hxm
    exact b s hs' x hxm

/-- C73, TEI output of a valid collation (exact matching), with or without indentation: if its sigla and tokens have only characters that XML
allows, the output is well-formed, and the text of each witness in the apparatus that is read from it is the text of the witness, up to
white space. -/
theorem C73_tei_of_collation (env : Env) (hts : TopoSpec env.topo) (hsp : LineSpace env.cc) (ws : List Witness) (hv : Valid ws)
    (hs : ∀ w ∈ ws, w.sigil ≠ [] ∧ ' ' ∉ w.sigil) (hx : HasTexts ws)
    (hl : ∀ w ∈ ws, (∀ c ∈ w.sigil, xmlLegal c = true) ∧ ∀ s, TextOf w.tokens s → ∀ c ∈ s, xmlLegal c = true) (o : Opts) (ho : ExactMatching o)
    (indent : Bool) :
    ∃ nodes root, collate env ws { o with output := S "tei" } = .ok (.tei nodes) ∧ readXml (teiString indent nodes) = some root ∧
      ∀ w ∈ ws, ∃ s, TextOf w.tokens s ∧ squeeze env.cc (apparatusText w.sigil root) = squeeze env.cc s := by
  obtain ⟨nodes, h1, h2⟩ := C39_tei_text env hts hsp.1 ws hv hs hx o ho
  have hs1 : ∀ w ∈ ws, w.sigil ≠ [] := fun w hw => (hs w hw).1
  obtain ⟨t, ws', g, rk, h3, h4, rfl, hws⟩ := exists_table env hts ws hv o ho
  have h5 : exportTei env.cc (mkTable ws' g rk) = .ok nodes := by
    have h3' : collateRanked env ws { o with output := S "tei" } = .ok (ws', g, rk) := h3
    have e : (S "tei" : Str) ∉ [S "svg", S "svg_simple", S "graph", S "json", S "html", S "html2", S "table", S "xml"] := by decide
    simp only [List.mem_cons, List.not_mem_nil, or_false, not_or] at e
    simp only [collate, h3', bind_ok, render, e, or_self, if_false, if_true] at h1
    obtain ⟨x, hx', h1⟩ := bind_eq_ok.mp h1
    cases h1
    exact hx'
  have hc := column_chars env hts ws hv hs1 o ho _ h4 hx (fun c => xmlLegal c = true) hl
  obtain ⟨root, h6, h7⟩ := C73_tei_text env.cc hsp indent nodes (tei_chars env.cc h5 _ (by decide) (by decide) hc)
  refine ⟨nodes, root, h1, h6, ?_⟩
  intro w hw
  obtain ⟨s, a, b⟩ := h2 w hw
  exact ⟨s, a, by rw [h7, b]⟩

theorem linesNode_rdg {r : Rdg} (h : '\r' ∉ r.text) :
    linesNodes (joinTexts [XNode.elem (S "rdg") [(S "wit", r.wit)] [.text r.text]] []) =
      joinTexts [XNode.elem (S "rdg") [(S "wit", r.wit)] [.text r.text]] [] := by
  by_cases h0 : r.text = []
  · simp [joinTexts, h0, linesNodes, linesNode]
  · simp [joinTexts, h0, linesNodes, linesNode, xmlLines_of_not_mem h]

theorem joinTexts_cons_elem (n : Str) (as : List (Str × Str)) (l' l : List XNode) :
    joinTexts (.elem n as l' :: l) [] = joinTexts [.elem n as l'] [] ++ joinTexts l [] := by
  simp [joinTexts]

theorem linesNodes_rdgs : ∀ {rdgs : List Rdg}, (∀ r ∈ rdgs, '\r' ∉ r.text) →
    linesNodes (joinTexts (rdgs.map fun r => XNode.elem (S "rdg") [(S "wit", r.wit)] [.text r.text]) []) =
      joinTexts (rdgs.map fun r => XNode.elem (S "rdg") [(S "wit", r.wit)] [.text r.text]) []
  | [], _ => by simp [joinTexts, linesNodes]
  | r :: rdgs, h => by
    rw [List.map_cons, joinTexts_cons_elem, linesNodes_append, linesNode_rdg (h r (by simp)), linesNodes_rdgs (fun x hx => h x (by simp [hx]))]

theorem linesNodes_text {s : Str} (h : '\r' ∉ s) : linesNodes (if s = [] then [] else [.text s]) = if s = [] then [] else [.text s] := by
  by_cases h0 : s = []
  · simp [h0, linesNodes]
  · simp [h0, linesNodes, linesNode, xmlLines_of_not_mem h]

theorem linesNodes_tei : ∀ {nodes : List TeiNode} {s : Str}, '\r' ∉ s → (∀ n ∈ nodes, '\r' ∉ teiChars n) →
    linesNodes (joinTexts (nodes.map teiChild) s) = joinTexts (nodes.map teiChild) s
  | [], s, hs, _ => by rw [List.map_nil, joinTexts, linesNodes_text hs]
  | .text t :: nodes, s, hs, h => by
    have ht : '\r' ∉ t := h (.text t) (by simp)
    rw [List.map_cons, teiChild, joinTexts]
    exact linesNodes_tei (by simp [hs, ht]) (fun n hn => h n (by simp [hn]))
  | .app rdgs :: nodes, s, hs, h => by
    have hr : ∀ r ∈ rdgs, '\r' ∉ r.text := by
      intro r hr hm
      exact h (.app rdgs) (by simp) (List.mem_flatMap.mpr ⟨r, hr, by simp [hm]⟩)
    rw [List.map_cons, teiChild, joinTexts, linesNodes_append, linesNodes_text hs, linesNodes, linesNode, linesNodes_rdgs hr,
      linesNodes_tei (by simp) (fun n hn => h n (by simp [hn]))]

/-- The full claim about the TEI output: what is read from it says about each witness exactly what the output says. -/
def Spec.TeiFaithful (indent : Bool) : Prop :=
  ∀ nodes : List TeiNode, ∃ root, readXml (teiString indent nodes) = some root ∧ ∀ σ, apparatusText σ root = teiText σ nodes

/-- C73, TEI without indentation, if there is no carriage return: what the apparatus that is read from the output says about a witness is exactly
what the output says. -/
theorem C73_tei_exact_partial (nodes : List TeiNode) (h : ∀ n ∈ nodes, ∀ c ∈ teiChars n, xmlLegal c = true ∧ c ≠ '\r') :
    ∃ root, readXml (teiString false nodes) = some root ∧ ∀ σ, apparatusText σ root = teiText σ nodes := by
  refine ⟨_, C73_tei nodes (fun n hn c hc => (h n hn c hc).1), ?_⟩
  intro σ
  rw [linesNode, linesNodes_tei (by simp) (fun n hn hm => (h n hn _ hm).2 rfl), apparatusText, childTexts_join, List.nil_append]
  clear h
  induction nodes with
  | nil => rfl
  | cons n nodes ih =>
    rw [List.map_cons, List.flatMap_cons, ih]
    show _ = teiText σ ([n] ++ nodes)
    rw [teiText_append]
    congr 1
    cases n with
    | text s => simp [teiChild, childText, teiText]
    | app rdgs =>
      rw [teiChild, childText, if_pos rfl]
      simp only [teiText, List.flatMap_cons, List.flatMap_nil, List.append_nil]
      induction rdgs with
      | nil => rfl
      | cons r rdgs ih =>
        rw [List.map_cons, List.flatMap_cons, List.flatMap_cons, ih, rdgText]
        congr 1
        by_cases hL : Lists r σ
        · rw [if_pos hL, if_pos ⟨rfl, rfl, hL⟩]
          simp [ownText]
        · rw [if_neg hL, if_neg (fun h => hL h.2.2)]

/-- `(a)` and `(b)`, without white space. -/
def parenWitnesses : List Witness :=
  [⟨S "A", [⟨S "(", [(.t, .str (S "(")), (.n, .str (S "("))]⟩, ⟨S "a", [(.t, .str (S "a")), (.n, .str (S "a"))]⟩,
      ⟨S ")", [(.t, .str (S ")")), (.n, .str (S ")"))]⟩]⟩,
   ⟨S "B", [⟨S "(", [(.t, .str (S "(")), (.n, .str (S "("))]⟩, ⟨S "b", [(.t, .str (S "b")), (.n, .str (S "b"))]⟩,
      ⟨S ")", [(.t, .str (S ")")), (.n, .str (S ")"))]⟩]⟩]

theorem parenWitnesses_valid : Valid parenWitnesses := valid_of_check (by decide) (by decide) (by decide) (by decide)

/-- C73, the limit: with indentation the output of `(a)` against `(b)` reads back with white space inside the parentheses. -/
theorem C73_pretty_changes_text : Valid parenWitnesses ∧
    collate exampleEnv parenWitnesses { output := S "tei" } =
      .ok (.tei [.text (S "("), .app [⟨S "#A", S "a"⟩, ⟨S "#B", S "b"⟩], .text (S ")")]) ∧
    (readXml (teiString false [.text (S "("), .app [⟨S "#A", S "a"⟩, ⟨S "#B", S "b"⟩], .text (S ")")])).map (apparatusText (S "A")) =
      some (S "(a)") ∧
    (readXml (teiString true [.text (S "("), .app [⟨S "#A", S "a"⟩, ⟨S "#B", S "b"⟩], .text (S ")")])).map (apparatusText (S "A")) =
      some (S "\n\t(\n\ta\n\t)\n") ∧ ¬ TeiFaithful true := by
  have h2 : (readXml (teiString true [.text (S "("), .app [⟨S "#A", S "a"⟩, ⟨S "#B", S "b"⟩], .text (S ")")])).map (apparatusText (S "A")) =
      some (S "\n\t(\n\ta\n\t)\n") := by decide +kernel
  refine ⟨parenWitnesses_valid, by decide +kernel, by decide +kernel, h2, ?_⟩
  intro h
  obtain ⟨root, h3, h4⟩ := h [.text (S "("), .app [⟨S "#A", S "a"⟩, ⟨S "#B", S "b"⟩], .text (S ")")]
  rw [h3, Option.map_some, h4] at h2
  revert h2
  decide

/-- A form feed after a word, as a page separator. -/
def feedWitnesses : List Witness :=
  [⟨S "A", [⟨S "a", [(.t, .str (S "a\u000c")), (.n, .str (S "a"))]⟩]⟩, ⟨S "B", [⟨S "a", [(.t, .str (S "a")), (.n, .str (S "a"))]⟩]⟩]

/-- C73, the limit: a token with a control character, which a plain text may have, makes the XML output ill-formed. -/
theorem C73_control_character : Valid feedWitnesses ∧
    collate exampleEnv feedWitnesses { output := S "xml" } = .ok (.xml [[⟨S "#A", S "a\u000c"⟩, ⟨S "#B", S "a"⟩]]) ∧
    readXml (xmlString [[⟨S "#A", S "a\u000c"⟩, ⟨S "#B", S "a"⟩]]) = none :=
  ⟨valid_of_check (by decide) (by decide) (by decide) (by decide), by decide +kernel, (C73_xml_wellformed _).mpr (by decide)⟩

/-- Texts that must be escaped, an empty reading and a line end, written and read. -/
example :
    xmlString [[⟨S "#A\"", S "a<b&c> "⟩, ⟨S "#B", []⟩], []] =
      S "<root><app><rdg wit=\"#A&quot;\">a&lt;b&amp;c&gt; </rdg><rdg wit=\"#B\" /></app><app /></root>" ∧
    (∀ rdgs ∈ [[(⟨S "#A\"", S "a<b&c> "⟩ : Rdg), ⟨S "#B", []⟩], []], ∀ r ∈ rdgs, ∀ c ∈ r.wit ++ r.text, xmlLegal c = true) ∧
    teiString false [.text (S "a"), .text (S " "), .app [⟨S "#A #B", S "x\""⟩]] =
      S "<?xml version=\"1.0\" ?><cx:apparatus xmlns:cx=\"http://interedition.eu/collatex/ns/1.0\" xmlns=\"http://www.tei-c.org/ns/1.0\">a <app><rdg wit=\"#A #B\">x\"</rdg></app></cx:apparatus>" ∧
    LineSpace asciiClass := by
  refine ⟨by decide +kernel, by decide, by decide +kernel, by decide, by decide, by decide, by decide⟩

/-- The hypotheses of C73 for collations are met. -/
example : TopoSpec exampleEnv.topo ∧ LineSpace exampleEnv.cc ∧ Valid plainWitnesses ∧ HasTexts plainWitnesses ∧
    (∀ w ∈ plainWitnesses, w.sigil ≠ [] ∧ ' ' ∉ w.sigil ∧ (∀ c ∈ w.sigil, xmlLegal c = true) ∧
      ∀ s, TextOf w.tokens s → ∀ c ∈ s, xmlLegal c = true) ∧ ExactMatching {} := by
  refine ⟨kahn_spec, ⟨by decide, by decide, by decide, by decide⟩, plainWitnesses_valid, plainWitnesses_texts, ?_, ⟨rfl, rfl, rfl⟩⟩
  have h1 : TextOf (plainWitnesses[0]).tokens (S "a b") := ⟨[S "a ", S "b"], by decide, by decide⟩
  have h2 : TextOf (plainWitnesses[1]).tokens (S "a c") := ⟨[S "a ", S "c"], by decide, by decide⟩
  intro w hw
  rcases List.mem_cons.mp hw with rfl | hw
  · refine ⟨by decide, by decide, by decide, ?_⟩
    intro s hs
    rw [TextOf.unique hs h1]
    decide
  · rw [List.mem_singleton.mp hw]
    refine ⟨by decide, by decide, by decide, ?_⟩
    intro s hs
    rw [TextOf.unique hs h2]
    decide

end CollateX
