/- What the pose graph script shows. -/
import Verif.Spec.PoseGraphScript

namespace Jaxfg.Spec

/-- The position of a pose: where it moves the origin to. -/
def position : LieType → List ℝ → List ℝ
  | .se2, [_, _, x, y] => [x, y]
  | .se3, [_, _, _, _, x, y, z] => [x, y, z]
  | _, _ => []

/-- The positions of the poses of kind `k`, in the order of the file. -/
noncomputable def positions (g : PoseGraph) (k : LieType) (x : Nat → List ℝ) : List (List ℝ) :=
  ((List.range g.poses.length).filter fun i => (g.poses.getD i (.se2, [])).1 = k).map fun i => position k (x i)

/-- Poses are first mentioned in the order of the file: no edge mentions a pose before all earlier poses have been mentioned. -/
def InOrder (g : PoseGraph) : Prop :=
  ∀ pre i post, (g.edges.flatMap fun e => [e.a, e.b]) = pre ++ i :: post → ∀ j < i, j ∈ pre

end Jaxfg.Spec
