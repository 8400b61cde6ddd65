/- Rigid motions, as matrices, and what a parameter vector stands for. -/
import Verif.Model.Lie
import Verif.Spec.Linearize
import Verif.Spec.DefaultJacobian
import Mathlib.LinearAlgebra.Matrix.Notation

namespace Jaxfg.Spec

/-- The four groups for which jaxfg has variable classes. -/
inductive LieType where
  | so2 | se2 | so3 | se3
deriving DecidableEq

namespace LieType

/-- The library's implementation. -/
noncomputable def ops : LieType → LieGroup
  | so2 => .so2
  | se2 => .se2
  | so3 => .so3
  | se3 => .se3

/-- A parameter vector of a group element: `(cos, sin)` or unit quaternion, followed by a translation. -/
def Valid : LieType → List ℝ → Prop
  | so2, x => ∃ c s, x = [c, s] ∧ c ^ 2 + s ^ 2 = 1
  | se2, x => ∃ c s a b, x = [c, s, a, b] ∧ c ^ 2 + s ^ 2 = 1
  | so3, x => ∃ w i j k, x = [w, i, j, k] ∧ w ^ 2 + i ^ 2 + j ^ 2 + k ^ 2 = 1
  | se3, x => ∃ w i j k a b c, x = [w, i, j, k, a, b, c] ∧ w ^ 2 + i ^ 2 + j ^ 2 + k ^ 2 = 1

/-- Size of the matrices of the group: rotations of the plane or of space, or rigid motions in homogeneous coordinates. -/
def matrixDim : LieType → Nat
  | so2 => 2
  | se2 => 3
  | so3 => 3
  | se3 => 4

/-- The motion that a parameter vector describes, as a matrix. The rotation of a unit quaternion `q` is `v ↦ q v q⁻¹`. -/
def motion : (k : LieType) → List ℝ → Matrix (Fin k.matrixDim) (Fin k.matrixDim) ℝ
  | so2, [c, s] => !![c, -s; s, c]
  | se2, [c, s, a, b] => !![c, -s, a; s, c, b; 0, 0, 1]
  | so3, [w, i, j, k] => !![w ^ 2 + i ^ 2 - j ^ 2 - k ^ 2, 2 * (i * j - w * k), 2 * (i * k + w * j);
      2 * (i * j + w * k), w ^ 2 - i ^ 2 + j ^ 2 - k ^ 2, 2 * (j * k - w * i);
      2 * (i * k - w * j), 2 * (j * k + w * i), w ^ 2 - i ^ 2 - j ^ 2 + k ^ 2]
  | se3, [w, i, j, k, a, b, c] => !![w ^ 2 + i ^ 2 - j ^ 2 - k ^ 2, 2 * (i * j - w * k), 2 * (i * k + w * j), a;
      2 * (i * j + w * k), w ^ 2 - i ^ 2 + j ^ 2 - k ^ 2, 2 * (j * k - w * i), b;
      2 * (i * k - w * j), 2 * (j * k + w * i), w ^ 2 - i ^ 2 - j ^ 2 + k ^ 2, c;
      0, 0, 0, 1]
  | _, _ => 0

/-- The angle by which the motion with this tangent vector rotates. -/
noncomputable def angle : LieType → List ℝ → ℝ
  | so2, [θ] => |θ|
  | se2, [_, _, θ] => |θ|
  | so3, [x, y, z] => √(x ^ 2 + y ^ 2 + z ^ 2)
  | se3, [_, _, _, x, y, z] => √(x ^ 2 + y ^ 2 + z ^ 2)
  | _, _ => 0

end LieType

/-- `f` is a pose factor, made by the library from well-formed arguments, whose measurement says `P pose` about the poses.
`K t` is the group of the variables of class `t`, `F` the factor classes. A prior says that the pose of its variable is `mu`;
a between factor says that the pose of `b` is the pose of `a` followed by the measured motion. -/
inductive Measures (F : Nat → FactorClass) (K : Ty → LieType) : Factor → ((Var → List ℝ) → Prop) → Prop
  | prior (cls : Nat) (v : Var) (mu : List ℝ) (noise : Noise) (hF : F cls = priorFactorClass (K v.ty).ops)
      (hmu : (K v.ty).Valid mu) :
      Measures F K (PriorFactor.make cls v ((K v.ty).ops.value mu) noise)
        fun pose => (K v.ty).motion (pose v) = (K v.ty).motion mu
  | between (cls : Nat) (a b : Var) (M : List ℝ) (noise : Noise) (f : Factor) (hF : F cls = betweenFactorClass (K a.ty).ops)
      (hM : (K a.ty).Valid M)
      (hf : BetweenFactor.make cls (fun t => (K t).ops.treedef) a b ((K a.ty).ops.value M) noise = .ok f) :
      Measures F K f fun pose => (K a.ty).motion (pose b) = (K a.ty).motion (pose a) * (K a.ty).motion M

/-- The value of a pose variable whose parameters are `pose v`. -/
noncomputable def poseValue (K : Ty → LieType) (pose : Var → List ℝ) (v : Var) : Value ℝ := (K v.ty).ops.value (pose v)

/-- A noise model that is blind in no direction: an invertible square root precision matrix, under any number of Huber
wrappers. -/
def NoiseRegular : Noise → Nat → Prop
  | .gaussian W, n => (arrMat W n n).det ≠ 0
  | .diagonal d, _ => ∀ x ∈ d.data, x ≠ 0
  | .huber w _, n => NoiseRegular w n

end Jaxfg.Spec
