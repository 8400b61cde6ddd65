/- Vocabulary for statements about where Gauss-Newton converges to. -/
import Verif.Spec.DoglegLimit

namespace Jaxfg.Spec

/-- The states that the steps `step` go through from an initial state of the graph `gE` when they are not stopped, all of them finite. -/
structure EndlessSteps (gE : GraphOps Ext) (step : State Ext → Py (State Ext × List (Msg Ext))) (u : Nat → State ℝ) : Prop where
  start : initState gE ((u 0).assignments.map Ext.fin) = .ok ((u 0).map Ext.fin)
  step : ∀ j, ∃ log, step ((u j).map Ext.fin) = .ok ((u (j + 1)).map Ext.fin, log)

end Jaxfg.Spec
