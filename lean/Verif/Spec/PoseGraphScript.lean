/- The least-squares problem that a g2o file describes. -/
import Verif.Spec.G2oAny
import Verif.Spec.Lie
import Verif.Model.Solver
import Verif.Model.Lift

namespace Jaxfg.Spec
open Matrix hiding vec

/-- What is missing between the motion from `x` to `y` and the measured motion `T`, as a tangent vector: `y exp(r) = x T`. -/
noncomputable def edgeError (k : LieType) (T x y : List ℝ) : List ℝ :=
  k.ops.log (k.ops.multiply (k.ops.inverse (k.ops.multiply (k.ops.inverse x) y)) T)

/-- The loss for a squared error `s`: the squared error, or with a threshold `δ` the smaller of the squared error and `δ` times
the error. -/
noncomputable def robustLoss : Option ℝ → ℝ → ℝ
  | none, s => s
  | some δ, s => min s (δ * Real.sqrt s)

/-- The objective for the poses `x i`: for each edge the error, weighed by the information matrix; for pose 0 the distance from its
pose in the file, weighed by 100². -/
noncomputable def fileObjective (huber : Option ℝ) (g : PoseGraph) (x : Nat → List ℝ) : ℝ :=
  (g.edges.map fun e =>
      let r := vec (edgeError e.k e.T (x e.a) (x e.b)) e.k.ops.tangentDim
      robustLoss huber (r ⬝ᵥ (e.P *ᵥ r))).sum +
    (g.poses.head?.elim 0 fun p => robustLoss huber (100 ^ 2 * sqNorm (p.1.ops.log (p.1.ops.multiply (p.1.ops.inverse (x 0)) p.2))))

/-- Every pose other than pose 0 is an end of an edge. -/
def Covered (g : PoseGraph) : Prop := ∀ i, i < g.poses.length → i ≠ 0 → ∃ e ∈ g.edges, e.a = i ∨ e.b = i

/-- `a` stores the pose `x i` for the variable `vars[i]`, for every pose of `g`, and nothing else. -/
structure StoresPoses (g : PoseGraph) (vars : List Var) (x : Nat → List ℝ) (a : Assign ℝ) : Prop where
  assignment : ∃ ws, IsAssignmentOf g2oClasses ws a ∧ ws.Perm vars
  isGlobal : a.layout.localFlag = false
  value : ∀ i v (k : LieType) y, vars[i]? = some v → g.poses[i]? = some (k, y) → a.getValue g2oClasses v = .ok (k.ops.value (x i))

/-- From `a`, `solve` returns poses for the variables `vars` of `g`, in the layout of `a`; if the poses of the file are rigid motions,
so are the returned ones. Fuel is needed for `max(1, N)` steps only. -/
def SolvesTo (g : PoseGraph) (vars : List Var) (a : Assign ℝ) (N : Int)
    (solve : Nat → Assign Ext → Py (Option (Assign Ext × List (Msg Ext)))) : Prop :=
  ∃ o log x, StoresPoses g vars x o ∧ o.layout = a.layout ∧
    ((∀ p ∈ g.poses, p.1.Valid p.2) → ∀ (i : Nat) (k : LieType) y, g.poses[i]? = some (k, y) → k.Valid (x i)) ∧
    ∀ fuel : Nat, max 1 N ≤ fuel → solve fuel (a.map Ext.fin) = .ok (some (o.map Ext.fin, log))

end Jaxfg.Spec
