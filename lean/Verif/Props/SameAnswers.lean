import Verif.Proofs.SameAnswers
/-
The result depends on the answers of the properties filter only: C88.
-/

namespace CollateX
open Spec

/-- C88. If two filters (or one and no filter) give the same answers about all tokens of the witnesses, asked in the order of the witnesses
(first a token of a later witness, then one of an earlier witness) and without the internal fields, then the result is the same, for every
output, with and without segmentation and near matching. -/
theorem C88_same_answers (env : Env) (ws : List Witness) (hv : Valid ws) (hr : Records ws) (o : Opts) (pf : Option PFilter)
    (h : ∀ (k l i j : Nat) (t u : Token), k < l → tokenAt ws l i = some t → tokenAt ws k j = some u →
      answer o.pfilter (visible t) (visible u) = answer pf (visible t) (visible u)) :
    collateRanked env ws o = collateRanked env ws { o with pfilter := pf } ∧ collate env ws o = collate env ws { o with pfilter := pf } := by
  obtain ⟨ti, hti, hws, L, B⟩ := hv.tokenIndex
  have hg : collateGraph env.topo o.pfilter o.detect ws = collateGraph env.topo pf o.detect ws := by
    unfold collateGraph
    rw [hti, bind_ok, bind_ok]
    cases hw : ti.ws with
    | nil => rfl
    | cons w rest =>
      simp only
      refine congrArg (fun f => firstWitness ti w >>= f) (funext fun s => ?_)
      rw [alignWitnesses_answers L B hws hr h env.topo o.detect rest 1 s (by rw [hw]; rfl)]
  have hrk : collateRanked env ws o = collateRanked env ws { o with pfilter := pf } := by
    unfold collateRanked
    simp only
    rw [hg]
  refine ⟨hrk, ?_⟩
  unfold collate
  rw [hrk]
  rfl

/-- C88: a filter that accepts every pair of tokens of the witnesses is like no filter. -/
theorem C88_accept_all (env : Env) (ws : List Witness) (hv : Valid ws) (hr : Records ws) (o : Opts) (f : PFilter)
    (h : ∀ (k l i j : Nat) (t u : Token), k < l → tokenAt ws l i = some t → tokenAt ws k j = some u → f (visible t) (visible u) = true) :
    collate env ws { o with pfilter := some f } = collate env ws { o with pfilter := none } :=
  (C88_same_answers env ws hv hr { o with pfilter := some f } none h).2

/-- A filter that is not symmetric: it rejects the token `b` with the property `x` as the first of the two. -/
def notFirst : PFilter := fun a _ => a != visible (propToken "b" "x")

/-- The hypotheses of `C88_accept_all` are met by this filter, although it does not accept everything: the first witness's tokens are never
the first of the two. -/
example : (∀ (k l i j : Nat) (t u : Token), k < l → tokenAt filterWitnesses l i = some t → tokenAt filterWitnesses k j = some u →
    notFirst (visible t) (visible u) = true) ∧ notFirst (visible (propToken "b" "x")) (visible (propToken "b" "y")) = false := by
  refine ⟨?_, by decide⟩
  intro k l i j t u hkl ht _
  match l, hkl, ht with
  | 1, _, ht =>
    match i, ht with
    | 0, ht =>
      obtain rfl := Option.some.inj ht
      show (visible _ != visible _) = true
      decide
    | 1, ht =>
      obtain rfl := Option.some.inj ht
      show (visible _ != visible _) = true
      decide
    | i + 2, ht => simp [tokenAt, filterWitnesses] at ht
  | l + 2, _, ht => simp [tokenAt, filterWitnesses] at ht

/-- Two witnesses `z a` and `a w`; the tokens `a` have different properties. -/
def answerWitnesses : List Witness :=
  [⟨S "A", [propToken "z" "x", propToken "a" "x"]⟩, ⟨S "B", [propToken "a" "y", propToken "w" "y"]⟩]

/-- The answers matter: with a filter that rejects the tokens `a` the result differs from that without a filter. -/
example : collate exampleEnv answerWitnesses { output := S "csv" } = .ok (.csv (S "A,z,a,\nB,,a,w\n")) ∧
    collate exampleEnv answerWitnesses { output := S "csv", pfilter := some sameProps } = .ok (.csv (S "A,za\nB,aw\n")) := by
  constructor <;> decide +kernel

end CollateX
