import Verif.Proofs.Prelude
import Verif.Model.Witness
import Verif.Spec.Tokens
/-
Lemmas about the tokenizer and the normalisation.
-/

namespace CollateX
open Spec

theorem takeDropWhile_append {α : Type} (p : α → Bool) (a r : List α) (ha : ∀ c ∈ a, p c = true)
    (hr : ∀ f, r.head? = some f → p f = false) :
    (a ++ r).takeWhile p = a ∧ (a ++ r).dropWhile p = r := by
  induction a with
  | nil =>
    cases r with
    | nil => simp
    | cons f r => simp [List.takeWhile, List.dropWhile, hr f rfl]
  | cons c a ih =>
    have hc : p c = true := ha c (by simp)
    have := ih (fun c h => ha c (by simp [h]))
    simp [List.takeWhile, List.dropWhile, hc, this]

theorem mem_takeWhile_imp {α : Type} {p : α → Bool} {l : List α} {x : α} (h : x ∈ l.takeWhile p) : p x = true := by
  induction l with
  | nil => simp at h
  | cons a l ih =>
    simp only [List.takeWhile] at h
    split at h
    · rcases List.mem_cons.mp h with rfl | h
      · assumption
      · exact ih h
    · simp at h

theorem head?_dropWhile_not {α : Type} (p : α → Bool) (l : List α) (f : α) (h : (l.dropWhile p).head? = some f) :
    p f = false := by
  induction l with
  | nil => simp at h
  | cons a l ih =>
    simp only [List.dropWhile] at h
    split at h
    · exact ih h
    · simp at h; subst h; simp_all

theorem length_dropWhile_le {α : Type} (p : α → Bool) (l : List α) : (l.dropWhile p).length ≤ l.length := by
  induction l with
  | nil => simp
  | cons a l ih => simp only [List.dropWhile]; split <;> simp <;> omega

/-- The word branch of the tokenizer. -/
theorem tokenizeF_word (cc : CharClass) (fuel : Nat) (c : Char) (cs : Str) (h : cc.word c = true) :
    tokenizeF cc (fuel + 1) (c :: cs) =
      ((c :: cs).takeWhile cc.word ++ ((c :: cs).dropWhile cc.word).takeWhile cc.space) ::
        tokenizeF cc fuel (((c :: cs).dropWhile cc.word).dropWhile cc.space) := by
  simp only [tokenizeF, h, if_true]

/-- The punctuation branch of the tokenizer. -/
theorem tokenizeF_punct (cc : CharClass) (fuel : Nat) (c : Char) (cs : Str) (h : cc.word c = false) :
    tokenizeF cc (fuel + 1) (c :: cs) =
      (c :: cs).takeWhile (fun d => !cc.word d) ::
        tokenizeF cc fuel ((c :: cs).dropWhile (fun d => !cc.word d)) := by
  simp only [tokenizeF, h]
  rfl

theorem tokenizeF_nil (cc : CharClass) (fuel : Nat) : tokenizeF cc fuel [] = [] := by
  cases fuel <;> rfl

/-- Head of the flattening: the first character of the first token. -/
theorem head_flatten {α : Type} {x : List α} {rest : List (List α)} (hx : x ≠ []) :
    ((x :: rest).flatten).head? = x.head? := by
  cases x with
  | nil => exact absurd rfl hx
  | cons a x => simp

theorem _root_.CollateX.Spec.WordTok.ne_nil {cc : CharClass} {t : Str} (h : WordTok cc t) : t ≠ [] := by
  obtain ⟨a, b, rfl, ha, -, -⟩ := h
  simp [ha]

theorem tok_ne_nil {cc : CharClass} {t : Str} (h : WordTok cc t ∨ PunctTok cc t) : t ≠ [] :=
  h.elim WordTok.ne_nil (fun h => h.1)

theorem _root_.CollateX.Spec.Adjacent.tail {α : Type} {R : α → α → Prop} {x : α} {l : List α} (h : Adjacent R (x :: l)) : Adjacent R l :=
  fun i a b ha hb => h (i + 1) a b (by simpa using ha) (by simpa using hb)

theorem _root_.CollateX.Spec.Adjacent.cons {α : Type} {R : α → α → Prop} {x : α} {l : List α} (h : Adjacent R l)
    (hx : ∀ y, l.head? = some y → R x y) : Adjacent R (x :: l) := by
  intro i a b ha hb
  cases i with
  | zero =>
    simp at ha hb
    subst ha
    exact hx b (by rw [← hb, List.head?_eq_getElem?])
  | succ i => exact h i a b (by simpa using ha) (by simpa using hb)

theorem _root_.CollateX.Spec.Adjacent.head {α : Type} {R : α → α → Prop} {x y : α} {l : List α} (h : Adjacent R (x :: y :: l)) : R x y :=
  h 0 x y rfl rfl

/-- The first character after the first token of a tokenisation satisfies the boundary condition. -/
theorem _root_.CollateX.Spec.Tokenisation.next {cc : CharClass} {s : Str} {x : Str} {rest : List Str}
    (h : Tokenisation cc s (x :: rest)) (f : Char) (hf : rest.flatten.head? = some f) :
    (WordTok cc x → cc.space f = false ∧ ∀ l, x.getLast? = some l → cc.word l = true → cc.word f = false) ∧
    (PunctTok cc x → cc.word f = true) := by
  cases rest with
  | nil => simp at hf
  | cons y rest =>
    have hy : y ≠ [] := tok_ne_nil (h.shape y (by simp))
    exact h.boundary.head f (by rw [← hf, head_flatten hy])

theorem _root_.CollateX.Spec.Tokenisation.tail {cc : CharClass} {s : Str} {x : Str} {rest : List Str}
    (h : Tokenisation cc s (x :: rest)) : Tokenisation cc rest.flatten rest :=
  ⟨rfl, fun t ht => h.shape t (by simp [ht]), h.boundary.tail⟩

/-- Splitting off the first token, word case. -/
theorem split_word (cc : CharClass) (a b r : Str) (ha : ∀ c ∈ a, cc.word c = true)
    (hb : ∀ c ∈ b, cc.space c = true)
    (hr : ∀ f, r.head? = some f → cc.space f = false ∧ (b = [] → cc.word f = false)) :
    (a ++ b ++ r).takeWhile cc.word ++ ((a ++ b ++ r).dropWhile cc.word).takeWhile cc.space = a ++ b ∧
    ((a ++ b ++ r).dropWhile cc.word).dropWhile cc.space = r := by
  have h1 := takeDropWhile_append cc.word a (b ++ r) ha (by
    intro f hf
    cases b with
    | nil => exact (hr f (by simpa using hf)).2 rfl
    | cons d b =>
      simp at hf; subst hf
      have hs := hb d (by simp)
      by_contra hw
      have := cc.disj d (by simpa using hw)
      simp [this] at hs)
  have h2 := takeDropWhile_append cc.space b r hb (fun f hf => (hr f hf).1)
  rw [List.append_assoc, h1.1, h1.2, h2.1, h2.2]
  exact ⟨rfl, rfl⟩

/-- Every canonical tokenisation is the one the code computes. -/
theorem tokenizeF_unique (cc : CharClass) (fuel : Nat) (s : Str) (hs : s.length ≤ fuel) (ts : List Str)
    (h : Tokenisation cc s ts) : tokenizeF cc fuel s = ts := by
  induction ts generalizing fuel s with
  | nil =>
    have := h.lossless
    simp at this; subst this
    exact tokenizeF_nil cc fuel
  | cons x rest ih =>
    have hl := h.lossless
    simp only [List.flatten_cons] at hl
    have hx := tok_ne_nil (h.shape x (by simp))
    obtain ⟨c, cs, rfl⟩ : ∃ c cs, x = c :: cs := by
      cases x with
      | nil => exact absurd rfl hx
      | cons c cs => exact ⟨c, cs, rfl⟩
    obtain ⟨fuel, rfl⟩ : ∃ k, fuel = k + 1 := by
      cases fuel with
      | zero => subst hl; simp at hs
      | succ k => exact ⟨k, rfl⟩
    rcases h.shape (c :: cs) (by simp) with hw | hp
    · obtain ⟨a, b, hab, hane, ha, hb⟩ := hw
      obtain ⟨a0, a1, rfl⟩ : ∃ a0 a1, a = a0 :: a1 := by
        cases a with
        | nil => exact absurd rfl hane
        | cons a0 a1 => exact ⟨a0, a1, rfl⟩
      have hca : c = a0 := by simp at hab; exact hab.1
      have hcw : cc.word c = true := by rw [hca]; exact ha a0 (by simp)
      have hw' : WordTok cc (c :: cs) := ⟨_, b, hab, hane, ha, hb⟩
      have sp := split_word cc (a0 :: a1) b rest.flatten ha hb (by
        intro f hf
        have := (h.next f hf).1 hw'
        refine ⟨this.1, fun hbn => ?_⟩
        subst hbn
        rw [List.append_nil] at hab
        have hne : (a0 :: a1) ≠ [] := by simp
        exact this.2 ((a0 :: a1).getLast hne) (by rw [hab, List.getLast?_eq_some_getLast hne])
          (ha _ (List.getLast_mem hne)))
      rw [← hab, hl] at sp
      have hs' : s = c :: (cs ++ rest.flatten) := by rw [← hl]; rfl
      rw [hs'] at sp ⊢
      rw [tokenizeF_word cc fuel c _ hcw, sp.1, sp.2]
      congr 1
      apply ih _ _ _ h.tail
      have : rest.flatten.length < s.length := by rw [hs']; simp; omega
      omega
    · have hcw : cc.word c = false := hp.2 c (by simp)
      have sp := takeDropWhile_append (fun d => !cc.word d) (c :: cs) rest.flatten
        (by intro d hd; simp [hp.2 d hd]) (by intro f hf; simp [(h.next f hf).2 hp])
      rw [hl] at sp
      have hs' : s = c :: (cs ++ rest.flatten) := by rw [← hl]; rfl
      rw [hs'] at sp ⊢
      rw [tokenizeF_punct cc fuel c _ hcw, sp.1, sp.2]
      congr 1
      apply ih _ _ _ h.tail
      have : rest.flatten.length < s.length := by rw [hs']; simp; omega
      omega

theorem not_word_of_space {cc : CharClass} {c : Char} (h : cc.space c = true) : cc.word c = false := by
  by_contra hw
  have := cc.disj c (by simpa using hw)
  simp [this] at h

theorem not_wordTok_of_punct {cc : CharClass} {t : Str} (h : PunctTok cc t) : ¬ WordTok cc t := by
  rintro ⟨a, b, rfl, ha, hw, -⟩
  cases a with
  | nil => exact ha rfl
  | cons c a =>
    have h1 := h.2 c (by simp)
    have h2 := hw c (by simp)
    simp [h1] at h2

/-- The code computes a canonical tokenisation. -/
theorem tokenizeF_isTokenisation (cc : CharClass) (fuel : Nat) (s : Str) (hs : s.length ≤ fuel) :
    Tokenisation cc s (tokenizeF cc fuel s) := by
  induction fuel generalizing s with
  | zero =>
    have : s = [] := List.eq_nil_of_length_eq_zero (by omega)
    subst this
    exact ⟨rfl, by simp [tokenizeF], by intro i x y hx; simp [tokenizeF] at hx⟩
  | succ fuel ih =>
    cases s with
    | nil => exact ⟨rfl, by simp [tokenizeF], by intro i x y hx; simp [tokenizeF] at hx⟩
    | cons c cs =>
      cases hc : cc.word c with
      | true =>
        rw [tokenizeF_word cc fuel c cs hc]
        generalize hrest : ((c :: cs).dropWhile cc.word).dropWhile cc.space = rest
        have e1 : (c :: cs).takeWhile cc.word ++ (c :: cs).dropWhile cc.word = c :: cs :=
          List.takeWhile_append_dropWhile
        have e2 : ((c :: cs).dropWhile cc.word).takeWhile cc.space ++ rest = (c :: cs).dropWhile cc.word := by
          rw [← hrest]; exact List.takeWhile_append_dropWhile
        have htw : (c :: cs).takeWhile cc.word = c :: cs.takeWhile cc.word := by simp [List.takeWhile, hc]
        have hlen : rest.length ≤ fuel := by
          have h1 := congrArg List.length e1
          have h2 := congrArg List.length e2
          rw [htw] at h1
          simp only [List.length_append, List.length_cons] at h1 h2 hs
          omega
        have hi := ih rest hlen
        refine ⟨?_, ?_, ?_⟩
        · rw [List.flatten_cons, hi.lossless, List.append_assoc, e2, e1]
        · intro t ht
          rcases List.mem_cons.mp ht with rfl | ht
          · left
            exact ⟨_, _, rfl, by simp [htw], fun c h => mem_takeWhile_imp h, fun c h => mem_takeWhile_imp h⟩
          · exact hi.shape t ht
        · apply Adjacent.cons hi.boundary
          intro y hy f hf
          -- f is the first character of rest
          have hyne : y ≠ [] := by intro h; subst h; simp at hf
          have hfr : rest.head? = some f := by
            rw [← hi.lossless]
            cases htl : tokenizeF cc fuel rest with
            | nil => rw [htl] at hy; simp at hy
            | cons z zs =>
              rw [htl] at hy; simp at hy; subst hy
              rw [head_flatten hyne, hf]
          have hsp : cc.space f = false := head?_dropWhile_not _ _ f (by rw [hrest]; exact hfr)
          refine ⟨fun _ => ⟨hsp, ?_⟩, fun hp => ?_⟩
          · intro l hl hlw
            -- the last character is a word character, so there is no white space in the token
            have hb : ((c :: cs).dropWhile cc.word).takeWhile cc.space = [] := by
              cases hbb : ((c :: cs).dropWhile cc.word).takeWhile cc.space with
              | nil => rfl
              | cons d ds =>
                exfalso
                rw [hbb, List.getLast?_append_of_ne_nil _ (by simp)] at hl
                have : l ∈ d :: ds := List.mem_of_getLast? hl
                rw [← hbb] at this
                have := not_word_of_space (mem_takeWhile_imp this)
                simp [this] at hlw
            rw [hb, List.nil_append] at e2
            exact head?_dropWhile_not _ _ f (by rw [← e2]; exact hfr)
          · exfalso
            exact not_wordTok_of_punct hp
              ⟨_, _, rfl, by simp [htw], fun c h => mem_takeWhile_imp h, fun c h => mem_takeWhile_imp h⟩
      | false =>
        rw [tokenizeF_punct cc fuel c cs hc]
        generalize hrest : (c :: cs).dropWhile (fun d => !cc.word d) = rest
        have e1 : (c :: cs).takeWhile (fun d => !cc.word d) ++ rest = c :: cs := by
          rw [← hrest]; exact List.takeWhile_append_dropWhile
        have htw : (c :: cs).takeWhile (fun d => !cc.word d) = c :: cs.takeWhile (fun d => !cc.word d) := by
          simp [List.takeWhile, hc]
        have hlen : rest.length ≤ fuel := by
          have h1 := congrArg List.length e1
          rw [htw] at h1
          simp only [List.length_append, List.length_cons] at h1 hs
          omega
        have hi := ih rest hlen
        have hpt : PunctTok cc ((c :: cs).takeWhile (fun d => !cc.word d)) :=
          ⟨by simp [htw], fun c h => by simpa using mem_takeWhile_imp h⟩
        refine ⟨?_, ?_, ?_⟩
        · rw [List.flatten_cons, hi.lossless, e1]
        · intro t ht
          rcases List.mem_cons.mp ht with rfl | ht
          · exact Or.inr hpt
          · exact hi.shape t ht
        · apply Adjacent.cons hi.boundary
          intro y hy f hf
          have hyne : y ≠ [] := by intro h; subst h; simp at hf
          have hfr : rest.head? = some f := by
            rw [← hi.lossless]
            cases htl : tokenizeF cc fuel rest with
            | nil => rw [htl] at hy; simp at hy
            | cons z zs =>
              rw [htl] at hy; simp at hy; subst hy
              rw [head_flatten hyne, hf]
          refine ⟨fun hw => absurd hw (not_wordTok_of_punct hpt), fun _ => ?_⟩
          have := head?_dropWhile_not _ _ f (by rw [hrest]; exact hfr)
          simpa using this

theorem rstrip_spec (cc : CharClass) (t : Str) : TrailingSpaceRemoved cc t (rstrip cc t) := by
  unfold rstrip
  have e : t.reverse.takeWhile cc.space ++ t.reverse.dropWhile cc.space = t.reverse :=
    List.takeWhile_append_dropWhile
  refine ⟨⟨(t.reverse.takeWhile cc.space).reverse, ?_, ?_⟩, ?_⟩
  · rw [← List.reverse_append, e, List.reverse_reverse]
  · intro c hc
    exact mem_takeWhile_imp (List.mem_reverse.mp hc)
  · intro l hl
    rw [List.getLast?_reverse] at hl
    exact head?_dropWhile_not _ _ l hl

theorem rstrip_unique (cc : CharClass) (t n : Str) (h : TrailingSpaceRemoved cc t n) : n = rstrip cc t := by
  obtain ⟨⟨b, rfl, hb⟩, hl⟩ := h
  unfold rstrip
  rw [List.reverse_append]
  have := (takeDropWhile_append cc.space b.reverse n.reverse (by simpa using hb) (by
    intro f hf; rw [List.head?_reverse] at hf; exact hl f hf)).2
  rw [this, List.reverse_reverse]

end CollateX
