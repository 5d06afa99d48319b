import Verif.Model.Phrases
import Verif.Model.Collate
import Mathlib.Data.List.Chain
/-
C70: the phrases of a witness in a graph.
-/

namespace CollateX

namespace Spec
variable {α : Type}

/-- The list cut between any two neighbours that are not related. -/
def runs (R : α → α → Bool) : List α → List (List α)
  | [] => []
  | a :: l =>
    match runs R l with
    | (b :: r) :: rest => if R a b then (a :: b :: r) :: rest else [a] :: (b :: r) :: rest
    | rest => [a] :: rest

/-- Two tokens are neighbours in the base: both have a vertex, and the edge between these is the only one to leave the first and the
only one to enter the second. -/
def neighbours (linked : Token → Option Nat) (g : VGraph) (s t : Token) : Bool :=
  match linked s, linked t with
  | some u, some v => g.edges.any (fun e => e.src = u ∧ e.tgt = v) && (g.edges.filter (fun e => e.src = u)).length == 1 &&
      (g.edges.filter (fun e => e.tgt = v)).length == 1
  | _, _ => false

/-- The phrases: the runs of tokens that are neighbours in the witness and in the base, with their vertices; tokens without vertex are
left out. -/
def phrases (linked : Token → Option Nat) (g : VGraph) (tokens : List Token) : List (List (Nat × Token)) :=
  ((runs (neighbours linked g) tokens).map (fun r => r.filterMap (fun t => (linked t).map (fun v => (v, t))))).filter (· ≠ [])

end Spec

open Spec

section
variable {α : Type} {R : α → α → Bool}

theorem runs_cons_ne (a : α) (l : List α) : ∃ r rest, runs R (a :: l) = (a :: r) :: rest := by
  rw [runs]
  split
  · split <;> exact ⟨_, _, rfl⟩
  · exact ⟨_, _, rfl⟩

theorem runs_cons_cons (a b : α) (l : List α) : ∃ r rest, runs R (b :: l) = (b :: r) :: rest ∧
    runs R (a :: b :: l) = if R a b then (a :: b :: r) :: rest else [a] :: (b :: r) :: rest := by
  obtain ⟨r, rest, h⟩ := runs_cons_ne (R := R) b l
  refine ⟨r, rest, h, ?_⟩
  rw [runs, h]

/-- A run is cut off where the relation fails. -/
theorem runs_cut : ∀ (l : List α) (a c : α) (m : List α), List.IsChain (fun a b => R a b = true) (a :: l) →
    R ((a :: l).getLast (by simp)) c = false → runs R ((a :: l) ++ c :: m) = (a :: l) :: runs R (c :: m)
  | [], a, c, m, _, h => by
    obtain ⟨r, rest, h1, h2⟩ := runs_cons_cons (R := R) a c m
    rw [List.singleton_append, h2, h1, if_neg (by simpa using h)]
  | b :: l, a, c, m, hc, h => by
    obtain ⟨r, rest, h1, h2⟩ := runs_cons_cons (R := R) a b (l ++ c :: m)
    rw [List.isChain_cons_cons] at hc
    have ih := runs_cut l b c m hc.2 (by simpa using h)
    rw [List.cons_append] at ih
    rw [h1] at ih
    injection ih with i1 i2
    rw [List.cons_append, List.cons_append, h2, if_pos hc.1, i1, i2]

theorem runs_chain : ∀ (l : List α) (a : α), List.IsChain (fun a b => R a b = true) (a :: l) → runs R (a :: l) = [a :: l]
  | [], a, _ => rfl
  | b :: l, a, hc => by
    rw [List.isChain_cons_cons] at hc
    obtain ⟨r, rest, h1, h2⟩ := runs_cons_cons (R := R) a b l
    rw [runs_chain l b hc.2] at h1
    injection h1 with i1 i2
    rw [h2, if_pos hc.1, ← i1, ← i2]

end

/-- The tokens of a phrase with their vertices. -/
def withVertices (linked : Dict Token VId) (l : List Token) : List (VId × Token) :=
  l.filterMap (fun t => (dget linked t).map (fun v => (v, t)))

/-- What holds during the loop: `run` are the tokens in the buffer. -/
structure PhraseInv (linked : Dict Token VId) (g : VGraph) (s : PhraseSt) (run : List Token) : Prop where
  chain : List.IsChain (fun a b => neighbours (dget linked) g a b = true) run
  buffer : s.buffer = withVertices linked run
  linkedAll : ∀ t ∈ run, ∃ v, dget linked t = some v
  last : ∀ t, run.getLast? = some t → dget linked t = some s.previous

theorem withVertices_nil {linked : Dict Token VId} {run : List Token} (h : ∀ t ∈ run, ∃ v, dget linked t = some v)
    (he : withVertices linked run = []) : run = [] := by
  cases run with
  | nil => rfl
  | cons a l =>
    obtain ⟨v, hv⟩ := h a (by simp)
    simp [withVertices, hv] at he

theorem neighbours_isNear {linked : Dict Token VId} {g : VGraph} {s t : Token} {u v : VId} (hs : dget linked s = some u)
    (ht : dget linked t = some v) : neighbours (dget linked) g s t = g.isNear u v := by
  unfold neighbours
  rw [hs, ht]
  rfl

theorem phrase_loop {linked : Dict Token VId} {g : VGraph} : ∀ (tokens : List Token) (s : PhraseSt) (run : List Token),
    PhraseInv linked g s run → ∃ run', (∀ t, tokens.getLast? = some t → dget linked t = none → run' = []) ∧
      PhraseInv linked g (tokens.foldl (phraseStep linked g) s) run' ∧
      (tokens.foldl (phraseStep linked g) s).flush.snapshots =
        s.snapshots ++ ((runs (neighbours (dget linked) g) (run ++ tokens)).map (withVertices linked)).filter (· ≠ []) := by
  intro tokens
  induction tokens with
  | nil =>
    intro s run H
    refine ⟨run, by simp, H, ?_⟩
    rw [List.foldl_nil, List.append_nil, PhraseSt.flush]
    cases run with
    | nil =>
      rw [if_pos (by rw [H.buffer]; rfl)]
      simp [runs]
    | cons a l =>
      have hne : withVertices linked (a :: l) ≠ [] := fun h => by cases withVertices_nil H.linkedAll h
      rw [if_neg (by rw [H.buffer]; exact hne), runs_chain l a H.chain, H.buffer]
      simp [hne]
  | cons t tokens ih =>
    intro s run H
    rw [List.foldl_cons]
    -- the state after a flush
    have hflush : PhraseInv linked g s.flush [] := by
      refine ⟨List.isChain_nil, ?_, by simp, by simp⟩
      unfold PhraseSt.flush
      split
      next h => exact h
      · rfl
    have hsnap : s.flush.snapshots = s.snapshots ++ (if run = [] then [] else [withVertices linked run]) := by
      unfold PhraseSt.flush
      rw [H.buffer]
      by_cases hr : run = []
      · subst hr; simp [withVertices]
      · rw [if_neg (fun h => hr (withVertices_nil H.linkedAll h)), if_neg hr]
    have hcut : (∀ a, run.getLast? = some a → neighbours (dget linked) g a t = false) →
        ((runs (neighbours (dget linked) g) (run ++ t :: tokens)).map (withVertices linked)).filter (· ≠ []) =
        (if run = [] then [] else [withVertices linked run]) ++
          ((runs (neighbours (dget linked) g) (t :: tokens)).map (withVertices linked)).filter (· ≠ []) := by
      intro h
      cases run with
      | nil => simp
      | cons a l =>
        have hne : withVertices linked (a :: l) ≠ [] := fun h => by cases withVertices_nil H.linkedAll h
        rw [runs_cut l a t tokens H.chain (h _ (List.getLast?_eq_getLast_of_ne_nil _))]
        simp [hne]
    cases hl : dget linked t with
    | none =>
      have hstep : phraseStep linked g s t = s.flush := by rw [phraseStep, hl]
      rw [hstep]
      obtain ⟨run', r1, r2, r3⟩ := ih s.flush [] hflush
      refine ⟨run', ?_, r2, ?_⟩
      · intro u hu hun
        cases tokens with
        | nil =>
          have e := r2.buffer
          exact withVertices_nil r2.linkedAll (by rw [← e]; exact hflush.buffer)
        | cons b l => exact r1 u (by simpa [List.getLast?_cons_cons] using hu) hun
      · rw [r3, hsnap, List.nil_append, hcut (by intro a _; unfold neighbours; rw [hl]; split <;> simp_all), List.append_assoc]
        congr 2
        cases tokens with
        | nil => simp [runs, withVertices, hl]
        | cons b l =>
          obtain ⟨r, rest, h1, h2⟩ := runs_cons_cons (R := neighbours (dget linked) g) t b l
          rw [h2, h1, if_neg (by unfold neighbours; rw [hl]; simp)]
          have : withVertices linked [t] = [] := by simp [withVertices, hl]
          simp [this]
    | some v =>
      cases run with
      | nil =>
        have hb : s.buffer = [] := H.buffer
        have hf : s.flush = s := by rw [PhraseSt.flush, if_pos hb]
        have hstep : phraseStep linked g s t = { s with buffer := [(v, t)], previous := v } := by
          rw [phraseStep, hl]
          simp only [hf, ite_self, hb, List.nil_append]
        rw [hstep]
        obtain ⟨run', r1, r2, r3⟩ := ih { s with buffer := [(v, t)], previous := v } [t]
          ⟨List.isChain_singleton _, by simp [withVertices, hl], by simp [hl], by simp [hl]⟩
        refine ⟨run', ?_, r2, ?_⟩
        · intro u hu hun
          cases tokens with
          | nil =>
            simp only [List.getLast?_singleton, Option.some.injEq] at hu
            rw [← hu, hl] at hun
            cases hun
          | cons b l => exact r1 u (by simpa [List.getLast?_cons_cons] using hu) hun
        · rw [r3]; rfl
      | cons a l =>
        have hlast : dget linked ((a :: l).getLast (by simp)) = some s.previous :=
          H.last _ (List.getLast?_eq_getLast_of_ne_nil _)
        have hn := neighbours_isNear (g := g) hlast hl
        by_cases hnear : g.isNear s.previous v = true
        · have hstep : phraseStep linked g s t = { s with buffer := s.buffer ++ [(v, t)], previous := v } := by
            rw [phraseStep, hl]
            simp only [hnear, if_true]
          rw [hstep]
          obtain ⟨run', r1, r2, r3⟩ := ih { s with buffer := s.buffer ++ [(v, t)], previous := v } (a :: l ++ [t]) (by
            refine ⟨?_, ?_, ?_, ?_⟩
            · rw [List.isChain_append]
              refine ⟨H.chain, List.isChain_singleton _, ?_⟩
              intro x hx y hy
              rw [List.getLast?_eq_getLast_of_ne_nil (by simp)] at hx
              simp only [Option.mem_def, Option.some.injEq, List.head?_cons] at hx hy
              rw [← hx, ← hy, hn, hnear]
            · show s.buffer ++ _ = _
              rw [H.buffer, withVertices, withVertices, List.filterMap_append]
              simp [hl]
            · intro u hu
              rcases List.mem_append.mp hu with h | h
              · exact H.linkedAll u h
              · rw [List.mem_singleton.mp h]; exact ⟨v, hl⟩
            · intro u hu
              rw [List.getLast?_append] at hu
              simp only [List.getLast?_singleton, Option.some_or, Option.some.injEq] at hu
              rw [← hu]; exact hl)
          refine ⟨run', ?_, r2, ?_⟩
          · intro u hu hun
            cases tokens with
            | nil =>
              simp only [List.getLast?_singleton, Option.some.injEq] at hu
              rw [← hu, hl] at hun
              cases hun
            | cons b l => exact r1 u (by simpa [List.getLast?_cons_cons] using hu) hun
          · rw [r3, List.append_assoc]; rfl
        · have hfb : s.flush.buffer = [] := hflush.buffer
          have hstep : phraseStep linked g s t = { s.flush with buffer := [(v, t)], previous := v } := by
            rw [phraseStep, hl]
            simp only [if_neg hnear, hfb, List.nil_append]
          rw [hstep]
          obtain ⟨run', r1, r2, r3⟩ := ih { s.flush with buffer := [(v, t)], previous := v } [t]
            ⟨List.isChain_singleton _, by simp [withVertices, hl], by simp [hl], by simp [hl]⟩
          refine ⟨run', ?_, r2, ?_⟩
          · intro u hu hun
            cases tokens with
            | nil =>
              simp only [List.getLast?_singleton, Option.some.injEq] at hu
              rw [← hu, hl] at hun
              cases hun
            | cons b l => exact r1 u (by simpa [List.getLast?_cons_cons] using hu) hun
          · rw [r3]
            show s.flush.snapshots ++ _ = _
            rw [hsnap, hcut, List.append_assoc]
            · rfl
            · intro x hx
              rw [List.getLast?_eq_getLast_of_ne_nil (by simp)] at hx
              simp only [Option.some.injEq] at hx
              rw [← hx, hn]
              simpa using hnear

/-- C70, what is found: the phrases, one after the other. -/
theorem C70_found (linked : Dict Token VId) (g : VGraph) (tokens : List Token) :
    foundPhrases linked g tokens = phrases (dget linked) g tokens := by
  obtain ⟨run', _, _, h⟩ := phrase_loop (linked := linked) (g := g) tokens ⟨[], [], startV⟩ [] ⟨List.isChain_nil, rfl, by simp, by simp⟩
  exact h

/-- C70, what is returned: a list of the right length, in which every entry reads as the last phrase if the last token belongs to
one, and as empty otherwise. -/
theorem C70_reads_last (linked : Dict Token VId) (g : VGraph) (tokens : List Token) :
    (detectPhrases linked g tokens).length = (phrases (dget linked) g tokens).length ∧
    (∀ t, tokens.getLast? = some t → dget linked t = none → ∀ p ∈ detectPhrases linked g tokens, p = []) ∧
    (∀ t v, tokens.getLast? = some t → dget linked t = some v → ∀ p ∈ detectPhrases linked g tokens,
      (phrases (dget linked) g tokens).getLast? = some p) := by
  obtain ⟨run', r1, r2, r3⟩ := phrase_loop (linked := linked) (g := g) tokens ⟨[], [], startV⟩ []
    ⟨List.isChain_nil, rfl, by simp, by simp⟩
  have hbuf : ∀ p ∈ detectPhrases linked g tokens, p = (phraseLoop linked g tokens).buffer := by
    intro p hp
    unfold detectPhrases at hp
    obtain ⟨_, _, rfl⟩ := List.mem_map.mp hp
    rfl
  refine ⟨by rw [detectPhrases, List.length_map, C70_found], ?_, ?_⟩
  · intro t ht hn p hp
    rw [hbuf p hp]
    exact r2.buffer.trans (by rw [r1 t ht hn]; rfl)
  · intro t v ht hv p hp
    rw [hbuf p hp, ← C70_found, foundPhrases]
    have hne : (phraseLoop linked g tokens).buffer ≠ [] := by
      obtain ⟨l, rfl⟩ : ∃ l, tokens = l ++ [t] := by
        rw [List.getLast?_eq_some_iff] at ht
        exact ht
      rw [phraseLoop, List.foldl_append, List.foldl_cons, List.foldl_nil, phraseStep, hv]
      simp
    rw [PhraseSt.flush, if_neg hne]
    simp

/-- C70 for one phrase at the end. What is missing: with more phrases, or if the last token has no vertex, what is returned are not
the phrases (`C70_phrases_lost`). -/
theorem C70_one_phrase_partial (linked : Dict Token VId) (g : VGraph) (tokens : List Token)
    (h1 : (phrases (dget linked) g tokens).length ≤ 1) (h2 : ∀ t, tokens.getLast? = some t → ∃ v, dget linked t = some v) :
    detectPhrases linked g tokens = phrases (dget linked) g tokens := by
  obtain ⟨e1, _, e3⟩ := C70_reads_last linked g tokens
  cases hd : detectPhrases linked g tokens with
  | nil =>
    rw [hd] at e1
    exact (List.length_eq_zero_iff.mp e1.symm).symm
  | cons p l =>
    rw [hd] at e1 e3
    cases hp : phrases (dget linked) g tokens with
    | nil => rw [hp] at e1; cases e1
    | cons q m =>
      rw [hp] at e1 h1
      have hm : m = [] := List.length_eq_zero_iff.mp (by simp at h1; simpa using h1)
      have hl : l = [] := List.length_eq_zero_iff.mp (by rw [hm] at e1; simpa using e1)
      subst hm
      subst hl
      cases ht : tokens.getLast? with
      | none =>
        rw [List.getLast?_eq_none_iff] at ht
        subst ht
        cases hp
      | some t =>
        obtain ⟨v, hv⟩ := h2 t ht
        have := e3 t v ht hv p (by simp)
        rw [hp] at this
        simp at this
        rw [this]

/-- The graph of the one witness `a b c`. -/
def abcGraph : VGraph := (merge VGraph.init (S "A") [⟨S "a", []⟩, ⟨S "b", []⟩, ⟨S "c", []⟩] []).1

/-- A token of another witness. -/
def bTok (s : String) : Token := ⟨S s, [(.sigil, .str (S "B"))]⟩

/-- Three of its tokens and their vertices. -/
def abcLinks : Dict Token VId := [(bTok "a", 2), (bTok "b", 3), (bTok "c", 4)]

/-- C70 fails: in `b c a` against `a b c` two phrases are found, `b c` and `a`, and `a` is returned twice. With another token at the end,
two empty phrases are returned. -/
theorem C70_phrases_lost :
    phrases (dget abcLinks) abcGraph [bTok "b", bTok "c", bTok "a"] = [[(3, bTok "b"), (4, bTok "c")], [(2, bTok "a")]] ∧
    detectPhrases abcLinks abcGraph [bTok "b", bTok "c", bTok "a"] = [[(2, bTok "a")], [(2, bTok "a")]] ∧
    detectPhrases abcLinks abcGraph [bTok "b", bTok "c", bTok "a", bTok "d"] = [[], []] := by
  decide +kernel

/-- A case of `C70_one_phrase_partial`: `d b c`. -/
example : phrases (dget abcLinks) abcGraph [bTok "d", bTok "b", bTok "c"] = [[(3, bTok "b"), (4, bTok "c")]] ∧
    (∀ t, [bTok "d", bTok "b", bTok "c"].getLast? = some t → ∃ v, dget abcLinks t = some v) := by
  refine ⟨by decide +kernel, ?_⟩
  intro t ht
  cases ht
  exact ⟨4, by decide +kernel⟩

end CollateX
