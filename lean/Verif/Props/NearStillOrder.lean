import Verif.Props.NearStill
import Verif.Props.Order
/-
C106 and C119: near matching and the topological order, with any number of witnesses.
-/

namespace CollateX
open Spec

/-- C106 with any number of witnesses, if without near matching no row has an empty cell directly after a filled one: then the topological
order does not matter, nor does the similarity function. -/
theorem C106_flush_right_partial (env env' : Env) (hts : TopoSpec env.topo) (hts' : TopoSpec env'.topo) (hcc : env'.cc = env.cc)
    (ws : List Witness) (hv : Valid ws) (hs : ∀ w ∈ ws, w.sigil ≠ []) (o : Opts) (ho : NearMatching o) {t0 : Table}
    (h0 : collateTable env ws { o with nearMatch := false } = .ok t0) (hr : FlushRight t0) :
    ∃ t t', collateTable env ws o = .ok t ∧ collateTable env' ws o = .ok t' ∧ t.rows = t'.rows ∧
      t.columns.map Column.variant = t'.columns.map Column.variant := by
  obtain ⟨_, t, t', h1, h2, h3, h4⟩ := C54_order_irrelevant env env' hts hts' hcc ws hv hs { o with nearMatch := false }
    ⟨ho.astar, ho.detect, rfl⟩
  rw [h0] at h1
  obtain rfl := Except.ok.inj h1
  have hlen : t0.columns.length = t'.columns.length := by
    have := congrArg List.length h4
    simpa using this
  have hr' : FlushRight t' := by
    intro row hrow j hj
    rw [← h3] at hrow
    exact hr row hrow j (by omega)
  exact ⟨t0, t', (C119_flush_right env hts ws hv hs o ho h0 hr).1, (C119_flush_right env' hts' ws hv hs o ho h2 hr').1, h3, h4⟩

end CollateX
