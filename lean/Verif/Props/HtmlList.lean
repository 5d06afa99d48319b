import Verif.Model.HtmlList
import Verif.Props.Options
/-
C95: lists and links as HTML.
-/

namespace CollateX

namespace Spec

/-- The lines of a list are single lines. -/
def SingleLines (lines : List Str) : Prop := ∀ x ∈ lines, '\n' ∉ x

/-- The names and values of attributes can be told apart from the characters around them. -/
def PlainAttributes (d : Dict Str Str) : Prop := ∀ p ∈ d, '=' ∉ p.1 ∧ '"' ∉ p.2

/-- The lines of a text; `acc` is the beginning of the current line, reversed. -/
def htmlLines (acc : Str) : Str → List Str
  | [] => [acc.reverse]
  | c :: s => if c = '\n' then acc.reverse :: htmlLines [] s else htmlLines (c :: acc) s

/-- The lines of an HTML text that begin with the tag of a list item, without the tag. -/
def itemLines (s : Str) : List Str :=
  (htmlLines [] s).filterMap (fun l => if (" <LI>".toList).isPrefixOf l then some (l.drop 5) else none)

end Spec

open Spec

theorem itemLines_go {x : Str} (hx : '\n' ∉ x) (acc s : Str) :
    htmlLines acc (x ++ '\n' :: s) = (acc.reverse ++ x) :: htmlLines [] s := by
  induction x generalizing acc with
  | nil => simp [htmlLines]
  | cons c x ih =>
    simp only [List.mem_cons, not_or] at hx
    rw [List.cons_append, htmlLines, if_neg (Ne.symm hx.1), ih hx.2]
    simp

theorem itemLines_line {x : Str} (hx : '\n' ∉ x) (s : Str) : itemLines (S " <LI>" ++ x ++ S "\n" ++ s) = x :: itemLines s := by
  have : S " <LI>" ++ x ++ S "\n" ++ s = (S " <LI>" ++ x) ++ '\n' :: s := by simp [S]
  rw [this]
  unfold itemLines
  rw [itemLines_go (by simp [S, hx])]
  simp [S]

theorem itemLines_other {x : Str} (hx : '\n' ∉ x) (h0 : x.head? ≠ some ' ') (s : Str) :
    itemLines (x ++ '\n' :: s) = itemLines s := by
  unfold itemLines
  rw [itemLines_go hx]
  rw [List.filterMap_cons]
  cases x with
  | nil => simp
  | cons c x =>
    have : ¬ ' ' = c := by
      rintro rfl
      simp at h0
    simp [this]

theorem itemLines_lines (lines : List Str) (h : SingleLines lines) (s : Str) :
    itemLines (lines.flatMap (fun x => S " <LI>" ++ x ++ S "\n") ++ s) = lines ++ itemLines s := by
  induction lines with
  | nil => rfl
  | cons x l ih =>
    rw [List.flatMap_cons, List.append_assoc, itemLines_line (h x (by simp)), ih (fun y hy => h y (by simp [hy]))]
    rfl

theorem attribsStr_newline {d : Dict Str Str} (h : ∀ p ∈ d, '\n' ∉ p.1 ∧ '\n' ∉ p.2) : '\n' ∉ attribsStr d := by
  induction d with
  | nil => simp [attribsStr]
  | cons p d ih =>
    obtain ⟨k, v⟩ := p
    have := h (k, v) (by simp)
    have := ih (fun q hq => h q (by simp [hq]))
    simp_all [attribsStr, S]

theorem cut_at {c : Char} : ∀ {a b s t : Str}, c ∉ a → c ∉ b → a ++ c :: s = b ++ c :: t → a = b ∧ s = t
  | [], [], _, _, _, _, h => by simpa using h
  | [], y :: b, _, _, _, hb, h => by
    simp only [List.nil_append, List.cons_append, List.cons.injEq] at h
    exact absurd (by simp [h.1]) hb
  | x :: a, [], _, _, ha, _, h => by
    simp only [List.nil_append, List.cons_append, List.cons.injEq] at h
    exact absurd (by simp [← h.1]) ha
  | x :: a, y :: b, _, _, ha, hb, h => by
    simp only [List.cons_append, List.cons.injEq, List.mem_cons, not_or] at h ha hb
    obtain ⟨e1, e2⟩ := cut_at ha.2 hb.2 h.2
    exact ⟨by rw [h.1, e1], e2⟩

/-- The attributes can be read from the tag. -/
theorem attribsStr_inj : ∀ {d e : Dict Str Str} {s t : Str}, PlainAttributes d → PlainAttributes e →
    attribsStr d ++ '>' :: s = attribsStr e ++ '>' :: t → d = e ∧ s = t
  | [], [], _, _, _, _, h => by simpa [attribsStr] using h
  | [], (k, v) :: e, _, _, _, _, h => by simp [attribsStr] at h
  | (k, v) :: d, [], _, _, _, _, h => by simp [attribsStr] at h
  | (k, v) :: d, (k', v') :: e, s, t, hd, he, h => by
    have h1 := hd (k, v) (by simp)
    have h2 := he (k', v') (by simp)
    have h3 : k ++ '=' :: ('"' :: (v ++ '"' :: (attribsStr d ++ '>' :: s))) =
        k' ++ '=' :: ('"' :: (v' ++ '"' :: (attribsStr e ++ '>' :: t))) := by
      simpa [attribsStr, S] using h
    obtain ⟨e1, e2⟩ := cut_at h1.1 h2.1 h3
    obtain ⟨e3, e4⟩ := cut_at h1.2 h2.2 (List.cons.inj e2).2
    obtain ⟨e5, e6⟩ := attribsStr_inj (fun p hp => hd p (by simp [hp])) (fun p hp => he p (by simp [hp])) e4
    simp only at e1 e3
    rw [e1, e3, e5]
    exact ⟨rfl, e6⟩

/-- C95: lines without line ends can be read from the HTML code of the list, in their order and without anything else. -/
theorem C95_items (l : HtmlList) (d : Dict Str Str) (hl : SingleLines l.lines)
    (hd : ∀ p ∈ l.attribs d, '\n' ∉ p.1 ∧ '\n' ∉ p.2) : itemLines (l.html d).1 = l.lines := by
  have key : ∀ tag : Str, '\n' ∉ tag → itemLines (S "<" ++ tag ++ attribsStr (l.attribs d) ++ S ">\n" ++
      l.lines.flatMap (fun x => S " <LI>" ++ x ++ S "\n") ++ S "</" ++ tag ++ S ">\n") = l.lines := by
    intro tag ht
    have e1 : S "<" ++ tag ++ attribsStr (l.attribs d) ++ S ">\n" ++
        l.lines.flatMap (fun x => S " <LI>" ++ x ++ S "\n") ++ S "</" ++ tag ++ S ">\n" =
        ('<' :: (tag ++ attribsStr (l.attribs d) ++ S ">")) ++ '\n' ::
          (l.lines.flatMap (fun x => S " <LI>" ++ x ++ S "\n") ++ (('<' :: ('/' :: (tag ++ S ">"))) ++ '\n' :: [])) := by
      simp [S]
    rw [e1, itemLines_other _ (by simp), itemLines_lines _ hl, itemLines_other _ (by simp)]
    · simp [itemLines, htmlLines]
    · simp [S, ht]
    · simp [S, ht, attribsStr_newline hd]
  unfold HtmlList.html
  cases l.ordered
  · exact key _ (by decide)
  · exact key _ (by decide)

theorem items_inj : ∀ {xs ys : List Str} {s t : Str}, SingleLines xs → SingleLines ys →
    xs.flatMap (fun x => S " <LI>" ++ x ++ S "\n") ++ '<' :: s = ys.flatMap (fun x => S " <LI>" ++ x ++ S "\n") ++ '<' :: t → xs = ys
  | [], [], _, _, _, _, _ => rfl
  | [], y :: ys, _, _, _, _, h => by simp [S] at h
  | x :: xs, [], _, _, _, _, h => by simp [S] at h
  | x :: xs, y :: ys, s, t, hx, hy, h => by
    have h1 : x ++ '\n' :: (xs.flatMap (fun x => S " <LI>" ++ x ++ S "\n") ++ '<' :: s) =
        y ++ '\n' :: (ys.flatMap (fun x => S " <LI>" ++ x ++ S "\n") ++ '<' :: t) := by
      simpa [S] using h
    obtain ⟨e1, e2⟩ := cut_at (hx x (by simp)) (hy y (by simp)) h1
    rw [e1, items_inj (fun z hz => hx z (by simp [hz])) (fun z hz => hy z (by simp [hz])) e2]

/-- C95, nothing is lost: from the HTML code one can read whether the list is ordered, its attributes and its lines. -/
theorem C95_injective (l m : HtmlList) (d e : Dict Str Str) (hl : SingleLines l.lines) (hm : SingleLines m.lines)
    (hd : PlainAttributes (l.attribs d)) (he : PlainAttributes (m.attribs e)) (h : (l.html d).1 = (m.html e).1) :
    l.ordered = m.ordered ∧ l.attribs d = m.attribs e ∧ l.lines = m.lines := by
  have e1 : l.ordered = m.ordered := by
    have := congrArg (fun s : Str => s[1]?) h
    unfold HtmlList.html at this
    cases hl : l.ordered <;> cases hm : m.ordered <;> simp_all [S]
  refine ⟨e1, ?_⟩
  unfold HtmlList.html at h
  rw [e1] at h
  have key : ∀ tag : Str, S "<" ++ tag ++ attribsStr (l.attribs d) ++ S ">\n" ++
      l.lines.flatMap (fun x => S " <LI>" ++ x ++ S "\n") ++ S "</" ++ tag ++ S ">\n" =
      S "<" ++ tag ++ attribsStr (m.attribs e) ++ S ">\n" ++
      m.lines.flatMap (fun x => S " <LI>" ++ x ++ S "\n") ++ S "</" ++ tag ++ S ">\n" →
      l.attribs d = m.attribs e ∧ l.lines = m.lines := by
    intro tag h
    have h1 : attribsStr (l.attribs d) ++ '>' :: ('\n' :: (l.lines.flatMap (fun x => S " <LI>" ++ x ++ S "\n") ++ '<' ::
        ('/' :: (tag ++ S ">\n")))) = attribsStr (m.attribs e) ++ '>' :: ('\n' :: (m.lines.flatMap (fun x => S " <LI>" ++ x ++ S "\n") ++
        '<' :: ('/' :: (tag ++ S ">\n")))) := by
      have : (S "<" ++ tag) ++ (attribsStr (l.attribs d) ++ '>' :: ('\n' :: (l.lines.flatMap (fun x => S " <LI>" ++ x ++ S "\n") ++ '<' ::
        ('/' :: (tag ++ S ">\n"))))) = (S "<" ++ tag) ++ (attribsStr (m.attribs e) ++ '>' :: ('\n' ::
        (m.lines.flatMap (fun x => S " <LI>" ++ x ++ S "\n") ++ '<' :: ('/' :: (tag ++ S ">\n"))))) := by
        simpa [S] using h
      exact List.append_cancel_left this
    obtain ⟨e2, e3⟩ := attribsStr_inj hd he h1
    exact ⟨e2, items_inj hl hm (List.cons.inj e3).2⟩
  exact key _ h

/-- C95, `str` can be called again: it gives the same, and the attributes do not change any more. -/
theorem C95_again (l : HtmlList) (d : Dict Str Str) : l.html (l.html d).2 = l.html d := by
  have : l.attribs (l.attribs d) = l.attribs d := by
    unfold HtmlList.attribs
    cases l.start with
    | none => rfl
    | some s =>
      by_cases h : s.truth
      · simp only [h, if_true]
        exact dset_dset d _ _ _
      · simp [h]
  unfold HtmlList.html
  simp only [this]

/-- C95: a text is shown as it is; a number is shown in decimal digits, after `-` if it is negative. -/
theorem C95_start_shown : (∀ x, (ListStart.str x).shown = x) ∧ (∀ n : Nat, (ListStart.num n).shown = Nat.toDigits 10 n) ∧
    ∀ n : Nat, 0 < n → (ListStart.num (-(n : Int))).shown = '-' :: Nat.toDigits 10 n := by
  refine ⟨fun _ => rfl, fun n => ?_, fun n hn => ?_⟩
  · change (toString n).toList = _
    simp
  · obtain ⟨m, rfl⟩ : ∃ m, n = m + 1 := ⟨n - 1, by omega⟩
    change ("-" ++ toString (m + 1)).toList = _
    simp

/-- C95, what `start` does: a number other than 0 or a text that is not empty is the value of the attribute `start`; other attributes are as given.
Otherwise nothing is added. -/
theorem C95_start (l : HtmlList) (d : Dict Str Str) (k : Str) : dget (l.attribs d) k =
    if k = "start".toList ∧ l.start.any (fun s => s ≠ .num 0 ∧ s ≠ .str []) then l.start.map ListStart.shown else dget d k := by
  unfold HtmlList.attribs
  cases l.start with
  | none => simp
  | some s =>
    cases s with
    | num n =>
      by_cases h : n = 0
      · simp [h, ListStart.truth]
      · by_cases hk : k = S "start"
        · subst hk
          simp [h, ListStart.truth, dget_dset_self]
          simp [S]
        · have hk' : ¬ k = "start".toList := hk
          simp only [ListStart.truth, bne_iff_ne, ne_eq, h, not_false_eq_true, if_true, hk', false_and, if_false]
          exact dget_dset_ne _ _ (Ne.symm hk)
    | str x =>
      by_cases h : x = []
      · simp [h, ListStart.truth]
      · by_cases hk : k = S "start"
        · subst hk
          simp [h, ListStart.truth, dget_dset_self]
          simp [S]
        · have hk' : ¬ k = "start".toList := hk
          simp only [ListStart.truth, bne_iff_ne, ne_eq, h, not_false_eq_true, if_true, hk', false_and, if_false]
          exact dget_dset_ne _ _ (Ne.symm hk)

/-- A list of two lines with a start. -/
def twoLines : HtmlList := ⟨["one".toList, "two <LI>".toList], true, some (.num 3)⟩

example : SingleLines twoLines.lines ∧ PlainAttributes (twoLines.attribs [("type".toList, "a".toList)]) ∧
    (∀ p ∈ twoLines.attribs [("type".toList, "a".toList)], '\n' ∉ p.1 ∧ '\n' ∉ p.2) ∧
    (twoLines.html [("type".toList, "a".toList)]).1 =
      "<OL type=\"a\" start=\"3\">\n <LI>one\n <LI>two <LI>\n</OL>\n".toList := by
  refine ⟨?_, ?_, ?_, by decide⟩
  · unfold SingleLines; decide
  · unfold PlainAttributes; decide
  · decide

/-- C95, the limits: a start of 0 is not shown; a line with a line end can show as two items; and a list made with the dictionary
of another list that has a start shows this start, though it has none itself. -/
theorem C95_limits :
    ((HtmlList.mk ["a".toList] true (some (.num 0))).html [] = (HtmlList.mk ["a".toList] true none).html []) ∧
    (∃ l m : HtmlList, l.lines ≠ m.lines ∧ (l.html []).1 = (m.html []).1) ∧
    (∃ (l m : HtmlList) (d : Dict Str Str), m.start = none ∧ htmlLists [l, m] d ≠ [(l.html d).1, (m.html d).1]) := by
  refine ⟨by decide, ⟨⟨["a\n <LI>b".toList], false, none⟩, ⟨["a".toList, "b".toList], false, none⟩, by decide, by decide⟩,
    ⟨⟨["a".toList], true, some (.num 3)⟩, ⟨["b".toList], true, none⟩, [("type".toList, "a".toList)], rfl, by decide⟩⟩

/-- C95, separate dictionaries: without attributes every list has its own dictionary and shows what it shows alone. -/
theorem C95_apart (ls : List HtmlList) : htmlLists ls [] = ls.map (fun l => (l.html []).1) := by
  induction ls with
  | nil => rfl
  | cons l ls ih => rw [htmlLists, ih]; rfl

/-- C95, links: text and address can be read from a link if the address has no quotation mark. -/
theorem C95_link {text url text' url' : Str} (h1 : '"' ∉ url) (h2 : '"' ∉ url') (h : htmlLink text url = htmlLink text' url') :
    text = text' ∧ url = url' := by
  have h3 : url ++ '"' :: ('>' :: (text ++ S "</a>")) = url' ++ '"' :: ('>' :: (text' ++ S "</a>")) := by
    simpa [htmlLink, S] using h
  obtain ⟨e1, e2⟩ := cut_at h1 h2 h3
  exact ⟨List.append_cancel_right (List.cons.inj e2).2, e1⟩

/-- C95, links: with quotation marks in the address they cannot. -/
theorem C95_link_quotation : ∃ text url text' url' : Str, (text, url) ≠ (text', url') ∧ htmlLink text url = htmlLink text' url' :=
  ⟨"z".toList, "x\">y".toList, "y\">z".toList, "x".toList, by decide, by decide⟩

example : '"' ∉ "http://x.y".toList ∧ htmlLink "t".toList "http://x.y".toList = "<a href=\"http://x.y\">t</a>".toList := by decide

end CollateX
