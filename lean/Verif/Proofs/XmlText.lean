import Verif.Spec.Xml
/-
Lemmas about the XML writers and the XML reader.
-/

namespace CollateX

open Spec

mutual
/-- The names and attributes of a node can be written. -/
def XNode.good : XNode → Prop
  | .text _ => True
  | .elem n as l => (n ≠ [] ∧ n.all nameChar = true) ∧ (as.map Prod.fst).Nodup ∧ (∀ a ∈ as, a.1 ≠ [] ∧ a.1.all nameChar = true) ∧ goodAll l
/-- All nodes. -/
def goodAll : List XNode → Prop
  | [] => True
  | x :: l => x.good ∧ goodAll l
end

mutual
/-- The text of a node without indentation; an element without children ends in `e`. -/
def XNode.out (e : Str) : XNode → Str
  | .text s => s.flatMap cdataChar
  | .elem n as [] => '<' :: (n ++ (attrsText as ++ e))
  | .elem n as (x :: l) => '<' :: (n ++ (attrsText as ++ ('>' :: (x.out e ++ (outAll e l ++ ('<' :: '/' :: (n ++ ['>'])))))))
/-- One after the other. -/
def outAll (e : Str) : List XNode → Str
  | [] => []
  | x :: l => x.out e ++ outAll e l
end

/-- A text, unless it is empty. -/
def textNode (s : Str) : List XNode := if s = [] then [] else [.text s]

mutual
/-- The tags and texts of a node. -/
def XNode.events : XNode → List XEvent
  | .text s => [.chars s]
  | .elem n as l => .start n as :: (eventsAll l ++ [.stop n])
/-- Of a list of nodes. -/
def eventsAll : List XNode → List XEvent
  | [] => []
  | x :: l => x.events ++ eventsAll l
end

/-! ### Cutting the text -/

theorem lex_cdata (c : Char) (s cs : Str) : lexXml (.text s) (cdataChar c ++ cs) = lexXml (.text (s ++ [c])) cs := by
  unfold cdataChar
  by_cases h1 : c = '&'
  · subst h1; rfl
  rw [if_neg h1]
  by_cases h2 : c = '<'
  · subst h2; rfl
  rw [if_neg h2]
  by_cases h3 : c = '>'
  · subst h3; rfl
  rw [if_neg h3]
  show lexXml (.text s) (c :: cs) = _
  rw [lexXml, if_neg h2, if_neg h1]

theorem lex_cdatas : ∀ (t s cs : Str), lexXml (.text s) (t.flatMap cdataChar ++ cs) = lexXml (.text (s ++ t)) cs
  | [], s, cs => by simp
  | c :: t, s, cs => by
    rw [List.flatMap_cons, List.append_assoc, lex_cdata, lex_cdatas t]
    simp

theorem lex_attrChar (c : Char) (n : Str) (as : List (Str × Str)) (k v cs : Str) :
    lexXml (.val n as k v) (attrChar c ++ cs) = lexXml (.val n as k (v ++ [c])) cs := by
  unfold attrChar
  by_cases h1 : c = '&'
  · subst h1; rfl
  rw [if_neg h1]
  by_cases h2 : c = '<'
  · subst h2; rfl
  rw [if_neg h2]
  by_cases h3 : c = '>'
  · subst h3; rfl
  rw [if_neg h3]
  by_cases h4 : c = '"'
  · subst h4; rfl
  rw [if_neg h4]
  by_cases h5 : c = '\r'
  · subst h5; rfl
  rw [if_neg h5]
  by_cases h6 : c = '\n'
  · subst h6; rfl
  rw [if_neg h6]
  by_cases h7 : c = '\t'
  · subst h7; rfl
  rw [if_neg h7]
  show lexXml (.val n as k v) (c :: cs) = _
  rw [lexXml, if_neg h4, if_neg h1, if_neg h2, if_neg (by simp [h6, h7])]

theorem lex_attrChars (n : Str) (as : List (Str × Str)) (k : Str) : ∀ (t v cs : Str),
    lexXml (.val n as k v) (t.flatMap attrChar ++ cs) = lexXml (.val n as k (v ++ t)) cs
  | [], v, cs => by simp
  | c :: t, v, cs => by
    rw [List.flatMap_cons, List.append_assoc, lex_attrChar, lex_attrChars n as k t]
    simp

theorem lex_key (n : Str) (as : List (Str × Str)) : ∀ (t k cs : Str), t.all nameChar = true →
    lexXml (.key n as k) (t ++ cs) = lexXml (.key n as (k ++ t)) cs
  | [], k, cs, _ => by simp
  | c :: t, k, cs, h => by
    simp only [List.all_cons, Bool.and_eq_true] at h
    rw [List.cons_append, lexXml, if_pos h.1, lex_key n as t _ _ h.2]
    simp

theorem lex_name : ∀ (t n cs : Str), t.all nameChar = true → lexXml (.name n) (t ++ cs) = lexXml (.name (n ++ t)) cs
  | [], n, cs, _ => by simp
  | c :: t, n, cs, h => by
    simp only [List.all_cons, Bool.and_eq_true] at h
    rw [List.cons_append, lexXml, if_pos h.1, lex_name t _ _ h.2]
    simp

theorem lex_close : ∀ (t n cs : Str), t.all nameChar = true → lexXml (.close n) (t ++ cs) = lexXml (.close (n ++ t)) cs
  | [], n, cs, _ => by simp
  | c :: t, n, cs, h => by
    simp only [List.all_cons, Bool.and_eq_true] at h
    rw [List.cons_append, lexXml, if_pos h.1, lex_close t _ _ h.2]
    simp

theorem nameChar_ne {c d : Char} (h : nameChar c = true) (hd : nameChar d = false) : c ≠ d := by
  rintro rfl
  rw [h] at hd; cases hd

/-- The attributes, after the name or after other attributes. -/
theorem lex_attrs (n : Str) : ∀ (as done : List (Str × Str)) (cs : Str), ((done ++ as).map Prod.fst).Nodup →
    (∀ a ∈ as, a.1 ≠ [] ∧ a.1.all nameChar = true) →
    lexXml (.tag n done) (attrsText as ++ cs) = lexXml (.tag n (done ++ as)) cs
  | [], done, cs, _, _ => by simp [attrsText]
  | (k, v) :: as, done, cs, hnd, hk => by
    obtain ⟨h1, h2⟩ := hk (k, v) (by simp)
    cases k with
    | nil => exact absurd rfl h1
    | cons c k =>
      simp only [List.all_cons, Bool.and_eq_true] at h2
      have hne : ∀ d, nameChar d = false → c ≠ d := fun d hd => nameChar_ne h2.1 hd
      have hnew : c :: k ∉ done.map Prod.fst := by
        intro hm
        rw [List.map_append, List.nodup_append] at hnd
        exact hnd.2.2 _ hm _ (by simp) rfl
      simp only [attrsText, List.cons_append, List.append_assoc]
      rw [lexXml, if_pos rfl, lexXml, if_neg (hne _ (by decide)), if_neg (hne _ (by decide)), if_neg (hne _ (by decide)), if_pos h2.1,
        lex_key n done k _ _ h2.2]
      show lexXml (.key n done ([c] ++ k)) ('=' :: '"' :: _) = _
      rw [lexXml, if_neg (by decide), if_pos ⟨rfl, hnew⟩, lexXml, if_pos rfl]
      show lexXml (.val n done (c :: k) []) (v.flatMap attrChar ++ '"' :: (attrsText as ++ cs)) = _
      rw [lex_attrChars, lexXml, if_pos rfl]
      rw [lex_attrs n as _ cs (by simpa using hnd) (fun a ha => hk a (by simp [ha]))]
      simp

/-- The beginning of a tag: after the name, what follows is read as after the attributes. -/
theorem lex_open {n : Str} {as : List (Str × Str)} (hn : n ≠ [] ∧ n.all nameChar = true) (has : (as.map Prod.fst).Nodup)
    (hk : ∀ a ∈ as, a.1 ≠ [] ∧ a.1.all nameChar = true) (c : Char) (hc : c = ' ' ∨ c = '/' ∨ c = '>') (s cs : Str) :
    lexXml (.text s) ('<' :: (n ++ (attrsText as ++ c :: cs))) = (lexXml (.tag n as) (c :: cs)).map (charsEvent s ++ ·) := by
  cases n with
  | nil => exact absurd rfl hn.1
  | cons d n =>
    simp only [List.all_cons, Bool.and_eq_true] at hn
    obtain ⟨_, h1, h2⟩ := hn
    have hne : ∀ e, nameChar e = false → d ≠ e := fun e he => nameChar_ne h1 he
    rw [lexXml, if_pos rfl, List.cons_append, lexXml, if_neg (hne _ (by decide)), if_neg (hne _ (by decide)), if_pos h1, lex_name n _ _ h2]
    congr 1
    show lexXml (.name (d :: n)) _ = _
    cases as with
    | nil =>
      show lexXml (.name (d :: n)) (c :: cs) = lexXml (.tag (d :: n) []) (c :: cs)
      rcases hc with rfl | rfl | rfl <;> rw [lexXml, lexXml] <;> rfl
    | cons a as =>
      have h3 := lex_attrs (d :: n) (a :: as) [] (c :: cs) (by simpa using has) hk
      rw [List.nil_append] at h3
      rw [← h3]
      obtain ⟨k, v⟩ := a
      simp only [attrsText, List.cons_append]
      rw [lexXml, if_neg (by decide), if_pos rfl]
      conv => rhs; rw [lexXml, if_pos rfl]

theorem lex_closing {n : Str} (hn : n ≠ [] ∧ n.all nameChar = true) (cs : Str) :
    lexXml .lt ('/' :: (n ++ '>' :: cs)) = (lexXml (.text []) cs).map (XEvent.stop n :: ·) := by
  rw [lexXml, if_neg (by decide), if_pos rfl, lex_close n _ _ hn.2, List.nil_append, lexXml, if_neg (by decide), if_pos ⟨rfl, hn.1⟩]

theorem charsEvent_events (s : Str) : eventsAll (textNode s) = charsEvent s := by
  unfold textNode charsEvent
  by_cases h : s = []
  · rw [if_pos h, if_pos h, eventsAll]
  · rw [if_neg h, if_neg h, eventsAll, eventsAll, XNode.events]; rfl

theorem eventsAll_append : ∀ l l' : List XNode, eventsAll (l ++ l') = eventsAll l ++ eventsAll l'
  | [], l' => by simp [eventsAll]
  | x :: l, l' => by rw [List.cons_append, eventsAll, eventsAll, eventsAll_append l l', List.append_assoc]

/-! ### Line ends -/

theorem xmlLines_cons {c : Char} (h : c ≠ '\r') (cs : Str) : xmlLines (c :: cs) = c :: xmlLines cs := by
  rw [xmlLines]
  · rintro _ rfl; exact absurd rfl h
  · rintro rfl; exact absurd rfl h

theorem xmlLines_append_left : ∀ {s : Str}, '\r' ∉ s → ∀ cs, xmlLines (s ++ cs) = s ++ xmlLines cs
  | [], _, _ => rfl
  | c :: s, h, cs => by
    simp only [List.mem_cons, not_or] at h
    rw [List.cons_append, xmlLines_cons (fun e => h.1 e.symm), xmlLines_append_left h.2, List.cons_append]

theorem xmlLines_of_not_mem {s : Str} (h : '\r' ∉ s) : xmlLines s = s := by
  have := xmlLines_append_left h []
  simpa [xmlLines] using this

theorem xmlLines_cr {cs : Str} (h : ∀ ds, cs ≠ '\n' :: ds) : xmlLines ('\r' :: cs) = '\n' :: xmlLines cs := by
  cases cs with
  | nil => rfl
  | cons c cs =>
    rw [xmlLines.eq_3]
    intro ds hd
    exact h ds hd

/-- The line ends of a written text that is followed by a tag. -/
theorem xmlLines_cdata (cs : Str) : ∀ (k : Nat) (s : Str), s.length ≤ k →
    xmlLines (s.flatMap cdataChar ++ '<' :: cs) = (xmlLines s).flatMap cdataChar ++ '<' :: xmlLines cs
  | _, [], _ => by
    rw [List.flatMap_nil, List.nil_append, xmlLines_cons (by decide)]; rfl
  | 0, _ :: _, h => absurd h (by simp)
  | k + 1, c :: s, h => by
    have hl : s.length ≤ k := by simpa using h
    by_cases hc : c = '\r'
    · subst hc
      have e : cdataChar '\r' = ['\r'] := by decide
      have e' : cdataChar '\n' = ['\n'] := by decide
      rw [List.flatMap_cons, e]
      cases s with
      | nil =>
        simp only [List.flatMap_nil, List.append_nil, List.cons_append, List.nil_append]
        rw [xmlLines_cr (by simp), xmlLines_cons (by decide)]
        simp [xmlLines, e']
      | cons d s =>
        by_cases hd : d = '\n'
        · subst hd
          have hl2 : s.length ≤ k := by simp at hl; omega
          rw [List.flatMap_cons, e', xmlLines.eq_2]
          show xmlLines ('\r' :: '\n' :: (s.flatMap cdataChar ++ '<' :: cs)) = _
          rw [xmlLines.eq_2, xmlLines_cdata cs k s hl2, List.flatMap_cons, e']
          rfl
        · have h1 : ∀ ds, (d :: s).flatMap cdataChar ++ '<' :: cs ≠ '\n' :: ds := by
            intro ds
            rw [List.flatMap_cons]
            unfold cdataChar
            split
            · simp [S]
            · split
              · simp [S]
              · split
                · simp [S]
                · simp [hd]
          show xmlLines ('\r' :: ((d :: s).flatMap cdataChar ++ '<' :: cs)) = _
          rw [xmlLines_cr h1, xmlLines_cr (by simp [hd]), xmlLines_cdata cs k (d :: s) hl, List.flatMap_cons, e']
          rfl
    · have h1 : '\r' ∉ cdataChar c := by
        unfold cdataChar
        split
        · decide
        · split
          · decide
          · split
            · decide
            · simpa using fun e => hc e.symm
      rw [List.flatMap_cons, List.append_assoc, xmlLines_append_left h1, xmlLines_cons hc, xmlLines_cdata cs k s hl, List.flatMap_cons,
        List.append_assoc]

theorem not_mem_attrChar (c : Char) : '\r' ∉ attrChar c := by
  unfold attrChar
  split
  · decide
  split
  · decide
  split
  · decide
  split
  · decide
  split
  · decide
  · rename_i h
    split
    · decide
    split
    · decide
    · simpa using fun e => h e.symm

theorem not_mem_name {n : Str} (h : n.all nameChar = true) : '\r' ∉ n := by
  intro hm
  have := List.all_eq_true.mp h _ hm
  revert this
  decide

theorem not_mem_attrs : ∀ (as : List (Str × Str)), (∀ a ∈ as, a.1 ≠ [] ∧ a.1.all nameChar = true) → '\r' ∉ attrsText as
  | [], _ => by simp [attrsText]
  | (k, v) :: as, h => by
    have h1 := not_mem_name (h (k, v) (by simp)).2
    have h2 := not_mem_attrs as (fun a ha => h a (by simp [ha]))
    have h3 : '\r' ∉ v.flatMap attrChar := by
      intro hm
      obtain ⟨c, _, hc⟩ := List.mem_flatMap.mp hm
      exact not_mem_attrChar c hc
    have h4 : '\r' ∉ S "=\"" := by decide
    simp only [attrsText, List.cons_append, List.mem_cons, List.mem_append, not_or]
    exact ⟨by decide, ⟨⟨h1, h4⟩, h3⟩, by decide, h2⟩

theorem linesNodes_append : ∀ l l' : List XNode, linesNodes (l ++ l') = linesNodes l ++ linesNodes l'
  | [], l' => by simp [linesNodes]
  | x :: l, l' => by rw [List.cons_append, linesNodes, linesNodes, linesNodes_append l l', List.cons_append]

theorem xmlLines_eq_nil : ∀ {s : Str}, xmlLines s = [] ↔ s = []
  | [] => by simp [xmlLines]
  | c :: s => by
    rw [xmlLines.eq_def]
    split <;> simp_all

theorem linesNodes_textNode (s : Str) : linesNodes (textNode s) = textNode (xmlLines s) := by
  unfold textNode
  by_cases h : s = []
  · rw [if_pos h, if_pos (xmlLines_eq_nil.mpr h), linesNodes]
  · rw [if_neg h, if_neg (fun e => h (xmlLines_eq_nil.mp e)), linesNodes, linesNodes, linesNode]

theorem lines_open {n : Str} {as : List (Str × Str)} (hn : n ≠ [] ∧ n.all nameChar = true)
    (hk : ∀ a ∈ as, a.1 ≠ [] ∧ a.1.all nameChar = true) (cs : Str) :
    xmlLines ('<' :: (n ++ (attrsText as ++ cs))) = '<' :: (n ++ (attrsText as ++ xmlLines cs)) := by
  rw [xmlLines_cons (by decide), xmlLines_append_left (not_mem_name hn.2), xmlLines_append_left (not_mem_attrs as hk)]

mutual
/-- An element, after the text `s`. -/
theorem lex_elem {e : Str} (he : e = S " />" ∨ e = S "/>") : ∀ (n : Str) (as : List (Str × Str)) (l : List XNode), (XNode.elem n as l).good →
    ∀ s cs : Str, lexXml (.text s) (xmlLines ((XNode.elem n as l).out e ++ cs)) =
      (lexXml (.text []) (xmlLines cs)).map (fun r => charsEvent s ++ ((XNode.elem n as (linesNodes (joinTexts l []))).events ++ r))
  | n, as, [], hg, s, cs => by
    simp only [XNode.good] at hg
    obtain ⟨h1, h2, h3, _⟩ := hg
    rw [XNode.out]
    simp only [List.cons_append, List.append_assoc]
    have hm : joinTexts [] [] = [] := by simp [joinTexts]
    rw [hm, linesNodes, XNode.events, eventsAll, lines_open h1 h3]
    rcases he with rfl | rfl
    · show lexXml (.text s) ('<' :: (n ++ (attrsText as ++ xmlLines (' ' :: '/' :: '>' :: cs)))) = _
      rw [xmlLines_cons (by decide), xmlLines_cons (by decide), xmlLines_cons (by decide), lex_open h1 h2 h3 ' ' (.inl rfl), lexXml, if_pos rfl,
        lexXml, if_neg (by decide), if_pos rfl, lexXml, if_pos rfl]
      cases lexXml (.text []) (xmlLines cs) <;> rfl
    · show lexXml (.text s) ('<' :: (n ++ (attrsText as ++ xmlLines ('/' :: '>' :: cs)))) = _
      rw [xmlLines_cons (by decide), xmlLines_cons (by decide), lex_open h1 h2 h3 '/' (.inr (.inl rfl)), lexXml, if_neg (by decide), if_pos rfl,
        lexXml, if_pos rfl]
      cases lexXml (.text []) (xmlLines cs) <;> rfl
  | n, as, x :: l, hg, s, cs => by
    simp only [XNode.good] at hg
    obtain ⟨h1, h2, h3, h4⟩ := hg
    have key := lex_nodes he (x :: l) h4 [] ('/' :: (n ++ '>' :: cs))
    rw [xmlLines_cons (by decide), xmlLines_append_left (not_mem_name h1.2), xmlLines_cons (by decide), lex_closing h1] at key
    rw [XNode.out]
    simp only [List.cons_append, List.append_assoc, List.nil_append]
    rw [lines_open h1 h3, xmlLines_cons (by decide), lex_open h1 h2 h3 '>' (.inr (.inr rfl)), lexXml, if_neg (by decide), if_neg (by decide),
      if_pos rfl]
    rw [outAll, List.append_assoc, List.flatMap_nil, List.nil_append] at key
    rw [key, XNode.events]
    cases lexXml (.text []) (xmlLines cs) with
    | none => rfl
    | some r => simp
/-- Nodes up to a tag, after the text `s`. -/
theorem lex_nodes {e : Str} (he : e = S " />" ∨ e = S "/>") : ∀ (l : List XNode), goodAll l → ∀ s cs : Str,
    lexXml (.text []) (xmlLines (s.flatMap cdataChar ++ (outAll e l ++ '<' :: cs))) =
      (lexXml .lt (xmlLines cs)).map (fun r => eventsAll (linesNodes (joinTexts l s)) ++ r)
  | [], _, s, cs => by
    rw [outAll, List.nil_append, xmlLines_cdata cs _ s (Nat.le_refl _), lex_cdatas, List.nil_append, lexXml, if_pos rfl, joinTexts]
    show _ = Option.map (fun r => eventsAll (linesNodes (textNode s)) ++ r) _
    rw [linesNodes_textNode, charsEvent_events]
  | .text t :: l, hg, s, cs => by
    simp only [goodAll] at hg
    rw [outAll, XNode.out, joinTexts, ← lex_nodes he l hg.2]
    simp
  | .elem n as l' :: l, hg, s, cs => by
    simp only [goodAll] at hg
    have h1 := lex_elem he n as l' hg.1 (xmlLines s) (outAll e l ++ '<' :: cs)
    have h2 := lex_nodes he l hg.2 [] cs
    rw [List.flatMap_nil, List.nil_append] at h2
    have hx : ∃ r, (XNode.elem n as l').out e = '<' :: r := by
      cases l' <;> exact ⟨_, by rw [XNode.out]⟩
    obtain ⟨r, hr⟩ := hx
    rw [outAll, List.append_assoc]
    have h3 : xmlLines (s.flatMap cdataChar ++ ((XNode.elem n as l').out e ++ (outAll e l ++ '<' :: cs))) =
        (xmlLines s).flatMap cdataChar ++ xmlLines ((XNode.elem n as l').out e ++ (outAll e l ++ '<' :: cs)) := by
      rw [hr, List.cons_append, xmlLines_cdata _ _ s (Nat.le_refl _), xmlLines_cons (c := '<') (by decide)]
    rw [h3, lex_cdatas, List.nil_append, h1, h2, joinTexts]
    show _ = Option.map (fun r => eventsAll (linesNodes (textNode s ++ _)) ++ r) _
    rw [linesNodes_append, eventsAll_append, linesNodes_textNode, charsEvent_events, linesNodes, linesNode, eventsAll]
    cases lexXml .lt (xmlLines cs) with
    | none => rfl
    | some r => simp
end

/-! ### Building the tree -/

mutual
theorem parse_nodes : ∀ (l : List XNode) (k : Nat) (es : List XEvent), (eventsAll l).length < k →
    (es = [] ∨ ∃ m es', es = .stop m :: es') → parseXml k (eventsAll l ++ es) = some (l, es)
  | _, 0, _, h, _ => absurd h (by omega)
  | [], k + 1, es, _, hes => by
    rw [eventsAll, List.nil_append]
    rcases hes with rfl | ⟨m, es', rfl⟩ <;> rw [parseXml] <;> simp
  | .text s :: l, k + 1, es, h, hes => by
    rw [eventsAll, XNode.events] at h ⊢
    simp only [List.cons_append, List.nil_append, List.length_cons] at h ⊢
    rw [parseXml, parse_nodes l k es (by omega) hes]
    rfl
  | .elem n as l' :: l, k + 1, es, h, hes => by
    rw [eventsAll, XNode.events] at h ⊢
    simp only [List.cons_append, List.append_assoc, List.nil_append, List.length_cons, List.length_append, List.length_nil] at h ⊢
    rw [parseXml, parse_nodes l' k _ (by omega) (.inr ⟨_, _, rfl⟩)]
    simp only [Option.bind_eq_bind, Option.bind_some, if_true]
    rw [parse_nodes l k es (by omega) hes]
    rfl
end

/-! ### Characters -/

mutual
/-- All characters in texts and attribute values are allowed. -/
def XNode.legal : XNode → Prop
  | .text s => s.all xmlLegal = true
  | .elem _ as l => (∀ a ∈ as, a.2.all xmlLegal = true) ∧ legalAll l
/-- In all nodes. -/
def legalAll : List XNode → Prop
  | [] => True
  | x :: l => x.legal ∧ legalAll l
end

theorem all_cdata (s : Str) : (s.flatMap cdataChar).all xmlLegal = true ↔ s.all xmlLegal = true := by
  rw [List.all_eq_true, List.all_eq_true]
  constructor
  · intro h c hc
    by_cases h1 : c = '&'
    · subst h1; decide
    by_cases h2 : c = '<'
    · subst h2; decide
    by_cases h3 : c = '>'
    · subst h3; decide
    refine h c (List.mem_flatMap.mpr ⟨c, hc, ?_⟩)
    simp [cdataChar, h1, h2, h3]
  · intro h c hc
    obtain ⟨d, hd, hc⟩ := List.mem_flatMap.mp hc
    unfold cdataChar at hc
    split at hc
    · exact List.all_eq_true.mp (show (S "&amp;").all xmlLegal = true by decide) c hc
    split at hc
    · exact List.all_eq_true.mp (show (S "&lt;").all xmlLegal = true by decide) c hc
    split at hc
    · exact List.all_eq_true.mp (show (S "&gt;").all xmlLegal = true by decide) c hc
    · rw [List.mem_singleton.mp hc]; exact h d hd

theorem all_attr (s : Str) : (s.flatMap attrChar).all xmlLegal = true ↔ s.all xmlLegal = true := by
  rw [List.all_eq_true, List.all_eq_true]
  constructor
  · intro h c hc
    by_cases h1 : c = '&'
    · subst h1; decide
    by_cases h2 : c = '<'
    · subst h2; decide
    by_cases h3 : c = '>'
    · subst h3; decide
    by_cases h4 : c = '"'
    · subst h4; decide
    by_cases h5 : c = '\r'
    · subst h5; decide
    by_cases h6 : c = '\n'
    · subst h6; decide
    by_cases h7 : c = '\t'
    · subst h7; decide
    refine h c (List.mem_flatMap.mpr ⟨c, hc, ?_⟩)
    simp [attrChar, h1, h2, h3, h4, h5, h6, h7]
  · intro h c hc
    obtain ⟨d, hd, hc⟩ := List.mem_flatMap.mp hc
    unfold attrChar at hc
    split at hc
    · exact List.all_eq_true.mp (show (S "&amp;").all xmlLegal = true by decide) c hc
    split at hc
    · exact List.all_eq_true.mp (show (S "&lt;").all xmlLegal = true by decide) c hc
    split at hc
    · exact List.all_eq_true.mp (show (S "&gt;").all xmlLegal = true by decide) c hc
    split at hc
    · exact List.all_eq_true.mp (show (S "&quot;").all xmlLegal = true by decide) c hc
    split at hc
    · exact List.all_eq_true.mp (show (S "&#13;").all xmlLegal = true by decide) c hc
    split at hc
    · exact List.all_eq_true.mp (show (S "&#10;").all xmlLegal = true by decide) c hc
    split at hc
    · exact List.all_eq_true.mp (show (S "&#09;").all xmlLegal = true by decide) c hc
    · rw [List.mem_singleton.mp hc]; exact h d hd

theorem nameChar_legal {c : Char} (h : nameChar c = true) : xmlLegal c = true := by
  have h1 : 32 ≤ c.toNat ∧ c.toNat < 0xFFFE := by
    unfold nameChar Char.isAlphanum Char.isAlpha Char.isUpper Char.isLower Char.isDigit at h
    simp only [Bool.or_eq_true, Bool.and_eq_true, decide_eq_true_eq, beq_iff_eq, UInt32.le_iff_toNat_le] at h
    have e : c.toNat = c.val.toNat := rfl
    rcases h with (((((h | h) | h) | rfl) | rfl) | rfl) | rfl
    · have := h.1; have := h.2; simp at *; omega
    · have := h.1; have := h.2; simp at *; omega
    · have := h.1; have := h.2; simp at *; omega
    all_goals decide
  unfold xmlLegal
  simp only [Bool.or_eq_true, Bool.and_eq_true, decide_eq_true_eq]
  exact .inr ⟨⟨h1.1, by omega⟩, by omega⟩

theorem all_name {n : Str} (h : n.all nameChar = true) : n.all xmlLegal = true :=
  List.all_eq_true.mpr (fun c hc => nameChar_legal (List.all_eq_true.mp h c hc))

theorem all_attrs : ∀ (as : List (Str × Str)), (∀ a ∈ as, a.1 ≠ [] ∧ a.1.all nameChar = true) →
    ((attrsText as).all xmlLegal = true ↔ ∀ a ∈ as, a.2.all xmlLegal = true)
  | [], _ => by simp [attrsText]
  | (k, v) :: as, h => by
    have ih := all_attrs as (fun a ha => h a (by simp [ha]))
    have hk := all_name (h (k, v) (by simp)).2
    have h1 : xmlLegal ' ' = true := by decide
    have h2 : xmlLegal '"' = true := by decide
    have h3 : (S "=\"").all xmlLegal = true := by decide
    rw [attrsText]
    simp only [List.cons_append, List.all_cons, List.all_append, Bool.and_eq_true, h1, h2, h3, hk, true_and, and_true, ih]
    rw [all_attr]
    simp

mutual
theorem legal_out {e : Str} (he : e.all xmlLegal = true) : ∀ x : XNode, x.good → ((x.out e).all xmlLegal = true ↔ x.legal)
  | .text s, _ => by rw [XNode.out, XNode.legal]; exact all_cdata s
  | .elem n as [], hg => by
    simp only [XNode.good] at hg
    have h1 : xmlLegal '<' = true := by decide
    rw [XNode.out, XNode.legal, legalAll, ← all_attrs as hg.2.2.1]
    simp only [List.all_cons, List.all_append, Bool.and_eq_true, h1, he, all_name hg.1.2, true_and, and_true]
  | .elem n as (x :: l), hg => by
    simp only [XNode.good] at hg
    have h1 : xmlLegal '<' = true := by decide
    have h2 : xmlLegal '>' = true := by decide
    have h3 : xmlLegal '/' = true := by decide
    obtain ⟨hn, _, hk, hl⟩ := hg
    rw [goodAll] at hl
    rw [XNode.out, XNode.legal, legalAll, ← all_attrs as hk, ← legal_out he x hl.1, ← legal_outAll he l hl.2]
    simp only [List.all_cons, List.all_append, Bool.and_eq_true, h1, h2, h3, all_name hn.2, true_and, and_true, List.all_nil]
theorem legal_outAll {e : Str} (he : e.all xmlLegal = true) : ∀ l : List XNode, goodAll l → ((outAll e l).all xmlLegal = true ↔ legalAll l)
  | [], _ => by rw [outAll, legalAll]; simp
  | x :: l, hg => by
    rw [goodAll] at hg
    rw [outAll, legalAll, ← legal_out he x hg.1, ← legal_outAll he l hg.2, List.all_append, Bool.and_eq_true]
end

/-! ### Documents -/

/-- The text before the root. -/
def Prolog (p : Str) (s : Str) : Prop := (p = [] ∧ s = []) ∨ (p = S "<?xml version=\"1.0\" ?>" ∧ s = []) ∨ (p = S "<?xml version=\"1.0\" ?>\n" ∧ s = ['\n'])

theorem lex_prolog {p s : Str} (h : Prolog p s) (cs : Str) : lexXml (.text []) (xmlLines (p ++ '<' :: cs)) = lexXml (.text s) (xmlLines ('<' :: cs)) := by
  rcases h with ⟨rfl, rfl⟩ | ⟨rfl, rfl⟩ | ⟨rfl, rfl⟩
  · rfl
  · rw [xmlLines_append_left (by decide)]
    generalize xmlLines ('<' :: cs) = r
    show Option.map _ (lexXml (.text []) r) = _
    cases lexXml (.text []) r <;> rfl
  · rw [xmlLines_append_left (by decide)]
    generalize xmlLines ('<' :: cs) = r
    show Option.map _ (lexXml (.text ['\n']) r) = _
    cases lexXml (.text ['\n']) r <;> rfl

theorem blank_filter_textNode {s : Str} (h : s = [] ∨ s = ['\n']) : (textNode s).filter (fun x => !blankNode x) = [] := by
  rcases h with rfl | rfl
  · rfl
  · simp [textNode, blankNode]

/-- Reading a document. -/
theorem readXml_doc {e p s q : Str} (he : e = S " />" ∨ e = S "/>") (hp : Prolog p s) (hq : q = [] ∨ q = ['\n']) (n : Str) (as : List (Str × Str))
    (l : List XNode) (hg : (XNode.elem n as l).good) :
    ((XNode.elem n as l).legal → readXml (p ++ ((XNode.elem n as l).out e ++ q)) = some (.elem n as (linesNodes (joinTexts l [])))) ∧
    (¬ (XNode.elem n as l).legal → readXml (p ++ ((XNode.elem n as l).out e ++ q)) = none) := by
  have hel : e.all xmlLegal = true := by rcases he with rfl | rfl <;> decide
  have hpl : p.all xmlLegal = true := by rcases hp with ⟨rfl, _⟩ | ⟨rfl, _⟩ | ⟨rfl, _⟩ <;> decide
  have hql : q.all xmlLegal = true := by rcases hq with rfl | rfl <;> decide
  have hlegal : (p ++ ((XNode.elem n as l).out e ++ q)).all xmlLegal = true ↔ (XNode.elem n as l).legal := by
    rw [List.all_append, List.all_append, hpl, hql, Bool.true_and, Bool.and_true, legal_out hel _ hg]
  constructor
  · intro hL
    unfold readXml
    rw [if_pos (hlegal.mpr hL)]
    have hx : ∃ r, (XNode.elem n as l).out e = '<' :: r := by
      cases l <;> exact ⟨_, by rw [XNode.out]⟩
    obtain ⟨r, hr⟩ := hx
    have h1 : lexXml (.text []) (xmlLines (p ++ ((XNode.elem n as l).out e ++ q))) =
        some (eventsAll (textNode s ++ (XNode.elem n as (linesNodes (joinTexts l [])) :: textNode q)) ++ []) := by
      have := lex_elem he n as l hg s q
      rw [hr, List.cons_append] at this ⊢
      rw [lex_prolog hp, this, eventsAll_append, charsEvent_events, eventsAll, charsEvent_events, List.append_nil]
      rcases hq with rfl | rfl <;> rfl
    rw [h1]
    simp only [Option.bind_eq_bind, Option.bind_some]
    rw [parse_nodes _ _ [] (by simp) (.inl rfl)]
    have hs : s = [] ∨ s = ['\n'] := by rcases hp with ⟨_, h⟩ | ⟨_, h⟩ | ⟨_, h⟩ <;> simp [h]
    have h2 : (textNode s ++ (XNode.elem n as (linesNodes (joinTexts l [])) :: textNode q)).filter (fun x => !blankNode x) =
        [XNode.elem n as (linesNodes (joinTexts l []))] := by
      rw [List.filter_append, blank_filter_textNode hs, List.filter_cons_of_pos (by simp [blankNode]), blank_filter_textNode hq]
      rfl
    simp only [Option.bind_some]
    rw [h2]
  · intro hL
    unfold readXml
    rw [if_neg (fun h => hL (hlegal.mp h))]

/-! ### The writers -/

mutual
theorem serialize_out : ∀ x : XNode, x.serialize = x.out (S " />")
  | .text s => by rw [XNode.serialize, XNode.out]
  | .elem n as [] => by rw [XNode.serialize, XNode.out]; simp
  | .elem n as (x :: l) => by
    rw [XNode.serialize, XNode.out, serialize_out x, serializeAll_out l]
    simp [S]
theorem serializeAll_out : ∀ l : List XNode, serializeAll l = outAll (S " />") l
  | [] => by rw [serializeAll, outAll]
  | x :: l => by rw [serializeAll, outAll, serialize_out x, serializeAll_out l]
end

mutual
/-- The nodes with the white space that is inserted. -/
def XNode.spread (addindent newl : Str) : XNode → Str → List XNode
  | .text s, indent => [.text (indent ++ s ++ newl)]
  | .elem n as [], indent => [.text indent, .elem n as [], .text newl]
  | .elem n as [.text s], indent => [.text indent, .elem n as [.text s], .text newl]
  | .elem n as (x :: l), indent =>
    [.text indent, .elem n as (.text newl :: (x.spread addindent newl (indent ++ addindent) ++ spreadAll addindent newl l (indent ++ addindent)
      ++ [.text indent])), .text newl]
/-- The child nodes. -/
def spreadAll (addindent newl : Str) : List XNode → Str → List XNode
  | [], _ => []
  | x :: l, indent => x.spread addindent newl indent ++ spreadAll addindent newl l indent
end

theorem outAll_append (e : Str) : ∀ l l' : List XNode, outAll e (l ++ l') = outAll e l ++ outAll e l'
  | [], l' => by simp [outAll]
  | x :: l, l' => by rw [List.cons_append, outAll, outAll, outAll_append e l l', List.append_assoc]

/-- White space. -/
def Blank (s : Str) : Prop := ∀ c ∈ s, c = ' ' ∨ c = '\t' ∨ c = '\n'

theorem cdata_blank : ∀ {s : Str}, Blank s → s.flatMap cdataChar = s
  | [], _ => rfl
  | c :: s, h => by
    rw [List.flatMap_cons, cdata_blank (fun d hd => h d (by simp [hd]))]
    rcases h c (by simp) with rfl | rfl | rfl <;> rfl

theorem Blank.append {s t : Str} (h : Blank s) (h' : Blank t) : Blank (s ++ t) := by
  intro c hc
  rcases List.mem_append.mp hc with hc | hc
  · exact h c hc
  · exact h' c hc

mutual
theorem writexml_out {a nl : Str} (ha : Blank a) (hn : Blank nl) : ∀ (x : XNode) (ind : Str), Blank ind →
    x.writexml a nl ind = outAll (S "/>") (x.spread a nl ind)
  | .text s, ind, hi => by rw [XNode.writexml, XNode.spread, outAll, outAll, XNode.out, List.append_nil]
  | .elem n as [], ind, hi => by
    rw [XNode.writexml, XNode.spread]
    simp [outAll, XNode.out, cdata_blank hi, cdata_blank hn]
  | .elem n as [.text s], ind, hi => by
    rw [XNode.writexml, XNode.spread]
    simp [outAll, XNode.out, cdata_blank hi, cdata_blank hn, S]
  | .elem n as [.elem n' as' l'], ind, hi => by
    rw [XNode.writexml.eq_4 _ _ _ _ _ _ _ (by simp), XNode.spread.eq_4 _ _ _ _ _ _ _ (by simp),
      writexml_out ha hn (.elem n' as' l') (ind ++ a) (hi.append ha), writexmlAll_out ha hn [] (ind ++ a) (hi.append ha)]
    simp [outAll, outAll_append, XNode.out, cdata_blank hi, cdata_blank hn, S]
  | .elem n as (x :: y :: l), ind, hi => by
    rw [XNode.writexml.eq_4 _ _ _ _ _ _ _ (by simp), XNode.spread.eq_4 _ _ _ _ _ _ _ (by simp),
      writexml_out ha hn x (ind ++ a) (hi.append ha), writexmlAll_out ha hn (y :: l) (ind ++ a) (hi.append ha)]
    simp [outAll, outAll_append, XNode.out, cdata_blank hi, cdata_blank hn, S]
theorem writexmlAll_out {a nl : Str} (ha : Blank a) (hn : Blank nl) : ∀ (l : List XNode) (ind : Str), Blank ind →
    writexmlAll a nl l ind = outAll (S "/>") (spreadAll a nl l ind)
  | [], ind, hi => by rw [writexmlAll, spreadAll, outAll]
  | x :: l, ind, hi => by rw [writexmlAll, spreadAll, outAll_append, writexml_out ha hn x ind hi, writexmlAll_out ha hn l ind hi]
end

end CollateX
