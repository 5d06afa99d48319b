import Verif.Proofs.AStar
/-
C49: best-first search.
-/

namespace CollateX

namespace Spec
variable {α : Type}

/-- `l` lists the nodes after `a` on a path of child steps. -/
def IsPath (children : α → List α) : α → List α → Prop
  | _, [] => True
  | a, b :: l => b ∈ children a ∧ IsPath children b l

/-- The cost of the path. -/
def pathCost (cost : α → α → Int) : α → List α → Int
  | _, [] => 0
  | a, b :: l => cost a b + pathCost cost b l

/-- The last node of the path. -/
def lastNode : α → List α → α
  | a, [] => a
  | _, b :: l => lastNode b l

/-- A consistent heuristic: no step lowers it by more than its cost, and it is the same at all end nodes (usually 0). -/
structure Consistent (children : α → List α) (cost : α → α → Int) (heuristic : α → Int) (isEnd : α → Bool) : Prop where
  step : ∀ a, ∀ b ∈ children a, heuristic a ≤ cost a b + heuristic b
  atEnd : ∀ a b, isEnd a = true → isEnd b = true → heuristic a = heuristic b

end Spec

open Spec

variable {α : Type}

theorem isPath_snoc {children : α → List α} {b : α} : ∀ {l : List α} {a : α}, IsPath children a l → b ∈ children (lastNode a l) →
    IsPath children a (l ++ [b])
  | [], _, _, h => ⟨h, trivial⟩
  | _ :: _, _, h, h' => ⟨h.1, isPath_snoc h.2 h'⟩

theorem lastNode_snoc {b : α} : ∀ {l : List α} {a : α}, lastNode a (l ++ [b]) = b
  | [], _ => rfl
  | c :: l, a => by rw [List.cons_append, lastNode, lastNode_snoc]

theorem pathCost_snoc {cost : α → α → Int} {b : α} : ∀ {l : List α} {a : α},
    pathCost cost a (l ++ [b]) = pathCost cost a l + cost (lastNode a l) b
  | [], _ => by simp [pathCost, lastNode]
  | c :: l, a => by rw [List.cons_append, pathCost, pathCost_snoc, pathCost, lastNode]; omega

variable [DecidableEq α]

omit [DecidableEq α] in
theorem ParentPath.real {P : SearchProblem α} {start : α} {g : α → Int} {parent : α → Option α} {vis p : List α} {n : α}
    (h : ParentPath P g parent start vis n p) : IsPath P.children start p ∧ lastNode start p = n ∧ pathCost P.cost start p = g n := by
  induction h with
  | base vis h1 h2 => exact ⟨trivial, rfl, h2.symm⟩
  | step h1 h2 h3 h4 ih =>
    obtain ⟨i1, i2, i3⟩ := ih
    refine ⟨isPath_snoc i1 (by rw [i2]; exact h3), lastNode_snoc, ?_⟩
    rw [pathCost_snoc, i2, i3, h4]

/-- What a search that finds something has found. -/
theorem searchLoop_some {P : SearchProblem α} {start : α} : ∀ {f : Nat} {s : SearchSt α} {p : List α}, SearchInv P start s →
    searchLoop P f s = .ok (some p) → IsPath P.children start p ∧ P.isEnd (lastNode start p) = true ∧
      (MonoH P → (∀ a b, P.isEnd a = true → P.isEnd b = true → P.heuristic a = P.heuristic b) → CostInv P start s →
        ∀ q, IsPath P.children start q → P.isEnd (lastNode start q) = true → pathCost P.cost start p ≤ pathCost P.cost start q)
  | 0, s, p, _, h => by cases h
  | f + 1, s, p, I, h => by
    rw [searchLoop] at h
    cases hs : sortByKey (fun x => s.g x + s.h x) s.heap with
    | nil => rw [hs] at h; cases h
    | cons node rest =>
      rw [hs] at h
      simp only at h
      have hnode : node ∈ s.heap := by rw [← mem_sortByKey (key := fun x => s.g x + s.h x), hs]; simp
      cases hend : P.isEnd node with
      | false =>
        rw [hend, if_neg (by simp)] at h
        obtain ⟨h1, h2, h3⟩ := searchLoop_some (round_inv I hs hend) h
        exact ⟨h1, h2, fun hmon hz K => h3 hmon hz (round_cost hmon I K hs hend)⟩
      | true =>
        rw [hend, if_pos rfl] at h
        obtain ⟨p', hp'⟩ := I.paths node hnode
        rw [reconstruct_ok hp' [] _ (Nat.lt_succ_self _), List.append_nil] at h
        have hpp : p' = p := by injection h with h; injection h
        subst hpp
        obtain ⟨r1, r2, r3⟩ := hp'.real
        refine ⟨r1, by rw [r2]; exact hend, ?_⟩
        intro hmon hz K q hq hqe
        rw [r3]
        have hmin := pop_min K hs
        -- the path q leaves the visited nodes through the heap
        have walk : ∀ (q : List α) (a : α) (acc : Int), (a ∈ s.visited ∨ a ∈ s.heap) → s.g a ≤ acc → IsPath P.children a q →
            P.isEnd (lastNode a q) = true → s.g node ≤ acc + pathCost P.cost a q := by
          have down : ∀ (q : List α) (a : α), IsPath P.children a q → P.isEnd (lastNode a q) = true →
              P.heuristic a ≤ pathCost P.cost a q + P.heuristic node := by
            intro q
            induction q with
            | nil => intro a _ he; rw [hz a node he hend, pathCost]; omega
            | cons b q ih =>
              intro a hp he
              have := ih b hp.2 he
              have := hmon a b hp.1
              rw [pathCost]; omega
          intro q
          induction q with
          | nil =>
            intro a acc ha hg hp he
            rcases ha with ha | ha
            · exact absurd he (by rw [lastNode, I.notEnd a ha]; simp)
            · have := hmin a ha
              have := hz a node he hend
              rw [pathCost]; omega
          | cons b q ih =>
            intro a acc ha hg hp he
            rcases ha with ha | ha
            · have := K.relaxed a ha b hp.1
              have := ih b (acc + P.cost a b) (I.opened a ha b hp.1) (by omega) hp.2 he
              rw [pathCost]; omega
            · have := hmin a ha
              have := down (b :: q) a hp he
              omega
        have hst : start ∈ s.visited ∨ start ∈ s.heap := by
          rcases I.started with h | h
          · exact .inl h
          · exact .inr (by rw [h]; simp)
        have hg0 := I.startCost
        have := walk q start 0 hst (by omega) hq hqe
        omega

/-- On a finite graph the search ends, and it finds nothing only if there is nothing. -/
theorem searchLoop_total {P : SearchProblem α} {start : α} {N : List α} (hN : ∀ a ∈ N, ∀ b ∈ P.children a, b ∈ N) (hst : start ∈ N) :
    ∀ {f : Nat} {s : SearchSt α}, SearchInv P start s → (∀ x ∈ s.heap, x ∈ N) → (∀ x ∈ s.visited, x ∈ N) →
      N.length < f + s.visited.length →
      ∃ r, searchLoop P f s = .ok r ∧ (r = none → ∀ q, IsPath P.children start q → P.isEnd (lastNode start q) = false)
  | 0, s, I, _, hv, hf => by
    exfalso
    have := List.Nodup.length_le_of_subset I.visNodup (fun x hx => hv x hx)
    omega
  | f + 1, s, I, hh, hv, hf => by
    rw [searchLoop]
    cases hs : sortByKey (fun x => s.g x + s.h x) s.heap with
    | nil =>
      refine ⟨none, rfl, fun _ => ?_⟩
      have hno : ∀ x, x ∉ s.heap := by
        intro x hx
        rw [← mem_sortByKey (key := fun x => s.g x + s.h x), hs] at hx
        cases hx
      have hsv : start ∈ s.visited := by
        rcases I.started with h | h
        · exact h
        · exact absurd (by rw [h]; simp) (hno start)
      have walk : ∀ (q : List α) (a : α), a ∈ s.visited → IsPath P.children a q → P.isEnd (lastNode a q) = false := by
        intro q
        induction q with
        | nil => intro a ha _; exact I.notEnd a ha
        | cons b q ih =>
          intro a ha hp
          exact ih b ((I.opened a ha b hp.1).resolve_right (hno b)) hp.2
      exact fun q hq => walk q start hsv hq
    | cons node rest =>
      have hnode : node ∈ s.heap := by rw [← mem_sortByKey (key := fun x => s.g x + s.h x), hs]; simp
      simp only
      cases hend : P.isEnd node with
      | true =>
        obtain ⟨p', hp'⟩ := I.paths node hnode
        rw [if_pos rfl, reconstruct_ok hp' [] _ (Nat.lt_succ_self _)]
        exact ⟨some (p' ++ []), rfl, by simp⟩
      | false =>
        rw [if_neg (by simp)]
        have hheap : ∀ (l : List α) (t : SearchSt α), (∀ c ∈ l, c ∈ N) → (∀ x ∈ t.heap, x ∈ N) →
            ∀ x ∈ (l.foldl (visitChild P node) t).heap, x ∈ N := by
          intro l
          induction l with
          | nil => intro t _ h; exact h
          | cons c l ih =>
            intro t hl ht
            rw [List.foldl_cons]
            refine ih _ (fun d hd => hl d (by simp [hd])) ?_
            intro x hx
            unfold visitChild at hx
            split at hx
            · exact ht x hx
            · simp only at hx
              split at hx
              · have hx : x ∈ (if c ∉ t.heap then t.heap ++ [c] else t.heap) := hx
                split at hx
                · rcases List.mem_append.mp hx with h | h
                  · exact ht x h
                  · rw [List.mem_singleton.mp h]; exact hl c (by simp)
                · exact ht x hx
              · exact ht x hx
        refine searchLoop_total hN hst (round_inv I hs hend) ?_ ?_ ?_
        · refine hheap _ _ (fun c hc => hN node (hh node hnode) c hc) ?_
          intro x hx
          refine hh x ?_
          rw [← mem_sortByKey (key := fun x => s.g x + s.h x), hs]
          exact List.mem_cons_of_mem _ hx
        · rw [foldl_visited]
          intro x hx
          rcases List.mem_cons.mp hx with rfl | hx
          · exact hh _ hnode
          · exact hv x hx
        · rw [foldl_visited]
          simp only [List.length_cons]
          omega

/-- C49, first half: what the search returns is a path of child steps from the start to an end node (the start itself is left
out of the list). -/
theorem C49_real_path (P : SearchProblem α) (fuel : Nat) (start : α) (p : List α) (h : search P fuel start = .ok (some p)) :
    IsPath P.children start p ∧ P.isEnd (lastNode start p) = true :=
  ⟨(searchLoop_some (start_inv start) h).1, (searchLoop_some (start_inv start) h).2.1⟩

/-- C49, second half: with a consistent heuristic no path from the start to an end node costs less. -/
theorem C49_least_cost (P : SearchProblem α) (fuel : Nat) (start : α) (p : List α) (h : search P fuel start = .ok (some p))
    (hc : Consistent P.children P.cost P.heuristic P.isEnd) (q : List α) (hq : IsPath P.children start q)
    (he : P.isEnd (lastNode start q) = true) : pathCost P.cost start p ≤ pathCost P.cost start q :=
  (searchLoop_some (start_inv start) h).2.2 hc.step hc.atEnd (start_cost start) q hq he

/-- On a finite graph `N` the search ends after at most as many rounds as there are nodes, and it finds a path exactly if there
is one, whatever the costs and the heuristic. -/
theorem C49_finds_path (P : SearchProblem α) (start : α) (N : List α) (hst : start ∈ N)
    (hN : ∀ a ∈ N, ∀ b ∈ P.children a, b ∈ N) (fuel : Nat) (hf : N.length < fuel) :
    ∃ r, search P fuel start = .ok r ∧
      ((∃ p, r = some p) ↔ ∃ q, IsPath P.children start q ∧ P.isEnd (lastNode start q) = true) := by
  obtain ⟨r, h1, h2⟩ := searchLoop_total hN hst (start_inv start) (by simpa using hst) (by simp)
    (f := fuel) (by simpa using hf)
  refine ⟨r, h1, ?_, ?_⟩
  · rintro ⟨p, rfl⟩
    exact ⟨p, C49_real_path P fuel start p h1⟩
  · rintro ⟨q, hq, he⟩
    cases r with
    | some p => exact ⟨p, rfl⟩
    | none => rw [h2 rfl q hq] at he; cases he

/-- A graph in which a node is reached first on a detour: 0 → 1 → 3 costs 6, 0 → 2 → 1 → 3 costs 4. -/
def detour (heuristic : Nat → Int) : SearchProblem Nat where
  children a := if a = 0 then [1, 2] else if a = 1 then [3] else if a = 2 then [1, 3] else []
  cost a b := if a = 0 ∧ b = 1 then 5 else if a = 2 ∧ b = 3 then 9 else if a = 2 then 2 else 1
  heuristic := heuristic
  isEnd a := a = 3

/-- The heuristic 3, 1, 3, 0 is consistent and the search finds the cheaper detour. -/
example : search (detour fun a => if a = 0 then 3 else if a = 1 then 1 else if a = 2 then 3 else 0) 5 0 = .ok (some [2, 1, 3]) ∧
    Consistent (detour fun a => if a = 0 then 3 else if a = 1 then 1 else if a = 2 then 3 else 0).children (detour fun _ => 0).cost
      (fun a => if a = 0 then 3 else if a = 1 then 1 else if a = 2 then 3 else 0) (detour fun _ => 0).isEnd := by
  refine ⟨by decide +kernel, ?_, ?_⟩
  · intro a b hb
    by_cases h0 : a = 0
    · subst h0
      have hb : b ∈ [1, 2] := hb
      revert b; decide
    · by_cases h1 : a = 1
      · subst h1
        have hb : b ∈ [3] := hb
        revert b; decide
      · by_cases h2 : a = 2
        · subst h2
          have hb : b ∈ [1, 3] := hb
          revert b; decide
        · simp [detour, h0, h1, h2] at hb
  · intro a b ha hb
    simp only [detour, decide_eq_true_eq] at ha hb
    subst ha; subst hb; rfl

/-- An inconsistent heuristic makes the search return the dearer path, so the hypothesis of `C49_least_cost` is needed. -/
example : search (detour fun a => if a = 2 then 100 else 0) 5 0 = .ok (some [1, 3]) ∧
    pathCost (detour fun _ => 0).cost 0 [2, 1, 3] < pathCost (detour fun _ => 0).cost 0 [1, 3] := by
  decide +kernel

end CollateX
