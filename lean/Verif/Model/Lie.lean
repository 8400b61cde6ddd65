/-
Lie group variables and pose factors: jaxfg/geometry/_lie_variables.py, jaxfg/geometry/_factors.py.

The groups themselves come from the library jaxlie (setup.py:19), which is not part of /repo: `SO2`, `SE2`, `SO3`, `SE3` below
are its documented formulas on the parameter vectors, over the reals. Simplifications: where jaxlie switches to a Taylor
polynomial for tiny angles, the model uses the exact function, with its limit at angle zero; vectors are lists, and a missing
element reads as zero (the theorems are about vectors of the right length).
-/
import Verif.Model.Factor
import Mathlib.Analysis.SpecialFunctions.Complex.Arg

namespace Jaxfg

/-- A subclass of `jaxlie.MatrixLieGroup`, as far as jaxfg uses it. Group elements are their parameter vectors, tangent vectors
are lists of numbers. -/
structure LieGroup where
  /-- identifies the Python class -/
  treedef : Nat
  /-- `parameters_dim` -/
  parametersDim : Nat
  /-- `tangent_dim` -/
  tangentDim : Nat
  /-- `identity()` -/
  identity : List ℝ
  /-- `a @ b` -/
  multiply : List ℝ → List ℝ → List ℝ
  /-- `inverse()` -/
  inverse : List ℝ → List ℝ
  /-- `exp(tangent)` -/
  exp : List ℝ → List ℝ
  /-- `log()` -/
  log : List ℝ → List ℝ
  /-- `adjoint()` -/
  adjoint : List ℝ → Arr ℝ
  /-- `jaxlie.manifold.rplus_jacobian_parameters_wrt_delta(x)` -/
  rplusJacobian : List ℝ → Arr ℝ

namespace LieGroup

/-- `jaxlie.manifold.rplus(x, delta)`, used at jaxfg/geometry/_lie_variables.py:44-45. -/
def rplus (G : LieGroup) (x δ : List ℝ) : List ℝ := G.multiply x (G.exp δ)

/-- `jaxlie.manifold.rminus(a, b)`, used at jaxfg/geometry/_factors.py:51, 106. -/
def rminus (G : LieGroup) (a b : List ℝ) : List ℝ := G.log (G.multiply (G.inverse a) b)

/-- `jnp.arctan2(y, x)`. -/
noncomputable def arctan2 (y x : ℝ) : ℝ := Complex.arg ⟨x, y⟩

/-! ### SO(2): parameters `(cos, sin)` -/

/-- `SO2.multiply`. -/
def so2Mul (a b : List ℝ) : List ℝ :=
  [a.getD 0 0 * b.getD 0 0 - a.getD 1 0 * b.getD 1 0, a.getD 1 0 * b.getD 0 0 + a.getD 0 0 * b.getD 1 0]

/-- `SO2.inverse`. -/
def so2Inv (a : List ℝ) : List ℝ := [a.getD 0 0, -a.getD 1 0]

/-- `jaxlie.SO2`. -/
noncomputable def so2 : LieGroup where
  treedef := 1
  parametersDim := 2
  tangentDim := 1
  identity := [1, 0]
  multiply := so2Mul
  inverse := so2Inv
  exp := fun d => [Real.cos (d.getD 0 0), Real.sin (d.getD 0 0)]
  log := fun a => [arctan2 (a.getD 1 0) (a.getD 0 0)]
  adjoint := fun _ => ⟨[1, 1], [1]⟩
  rplusJacobian := fun a => ⟨[2, 1], [-a.getD 1 0, a.getD 0 0]⟩

/-! ### SE(2): parameters `(cos, sin, x, y)`, tangents `(vx, vy, omega)` -/

/-- `sin θ / θ` in `SE2.exp`. -/
noncomputable def sinOver (θ : ℝ) : ℝ := if θ = 0 then 1 else Real.sin θ / θ

/-- `(1 - cos θ) / θ` in `SE2.exp`. -/
noncomputable def cosOver (θ : ℝ) : ℝ := if θ = 0 then 0 else (1 - Real.cos θ) / θ

/-- `half_theta_over_tan_half_theta` in `SE2.log`. -/
noncomputable def halfOverTan (θ : ℝ) : ℝ :=
  if Real.cos θ - 1 = 0 then 1 else -(θ / 2 * Real.sin θ) / (Real.cos θ - 1)

/-- `SE2.multiply`. -/
def se2Mul (a b : List ℝ) : List ℝ :=
  [a.getD 0 0 * b.getD 0 0 - a.getD 1 0 * b.getD 1 0, a.getD 1 0 * b.getD 0 0 + a.getD 0 0 * b.getD 1 0,
    a.getD 0 0 * b.getD 2 0 - a.getD 1 0 * b.getD 3 0 + a.getD 2 0,
    a.getD 1 0 * b.getD 2 0 + a.getD 0 0 * b.getD 3 0 + a.getD 3 0]

/-- `SE2.inverse`. -/
def se2Inv (a : List ℝ) : List ℝ :=
  [a.getD 0 0, -a.getD 1 0, -(a.getD 0 0 * a.getD 2 0 + a.getD 1 0 * a.getD 3 0),
    -(-a.getD 1 0 * a.getD 2 0 + a.getD 0 0 * a.getD 3 0)]

/-- `SE2.exp`. -/
noncomputable def se2Exp (d : List ℝ) : List ℝ :=
  let θ := d.getD 2 0
  [Real.cos θ, Real.sin θ, sinOver θ * d.getD 0 0 - cosOver θ * d.getD 1 0, cosOver θ * d.getD 0 0 + sinOver θ * d.getD 1 0]

/-- `SE2.log`. -/
noncomputable def se2Log (a : List ℝ) : List ℝ :=
  let θ := arctan2 (a.getD 1 0) (a.getD 0 0)
  [halfOverTan θ * a.getD 2 0 + θ / 2 * a.getD 3 0, -(θ / 2) * a.getD 2 0 + halfOverTan θ * a.getD 3 0, θ]

/-- `jaxlie.SE2`. -/
noncomputable def se2 : LieGroup where
  treedef := 2
  parametersDim := 4
  tangentDim := 3
  identity := [1, 0, 0, 0]
  multiply := se2Mul
  inverse := se2Inv
  exp := se2Exp
  log := se2Log
  adjoint := fun a => ⟨[3, 3], [a.getD 0 0, -a.getD 1 0, a.getD 3 0, a.getD 1 0, a.getD 0 0, -a.getD 2 0, 0, 0, 1]⟩
  rplusJacobian := fun a => ⟨[4, 3],
    [0, 0, -a.getD 1 0, 0, 0, a.getD 0 0, a.getD 0 0, -a.getD 1 0, 0, a.getD 1 0, a.getD 0 0, 0]⟩

/-! ### SO(3): parameters `(w, x, y, z)` -/

/-- `SO3.multiply`. -/
def so3Mul (a b : List ℝ) : List ℝ :=
  let w0 := a.getD 0 0; let x0 := a.getD 1 0; let y0 := a.getD 2 0; let z0 := a.getD 3 0
  let w1 := b.getD 0 0; let x1 := b.getD 1 0; let y1 := b.getD 2 0; let z1 := b.getD 3 0
  [-x0 * x1 - y0 * y1 - z0 * z1 + w0 * w1, x0 * w1 + y0 * z1 - z0 * y1 + w0 * x1, -x0 * z1 + y0 * w1 + z0 * x1 + w0 * y1,
    x0 * y1 - y0 * x1 + z0 * w1 + w0 * z1]

/-- `SO3.inverse`. -/
def so3Inv (a : List ℝ) : List ℝ := [a.getD 0 0, -a.getD 1 0, -a.getD 2 0, -a.getD 3 0]

/-- `SO3.as_matrix`, row major, for a unit quaternion. -/
def so3Matrix (a : List ℝ) : List ℝ :=
  let w := a.getD 0 0; let x := a.getD 1 0; let y := a.getD 2 0; let z := a.getD 3 0
  [1 - 2 * y * y - 2 * z * z, 2 * x * y - 2 * z * w, 2 * x * z + 2 * y * w,
    2 * x * y + 2 * z * w, 1 - 2 * x * x - 2 * z * z, 2 * y * z - 2 * x * w,
    2 * x * z - 2 * y * w, 2 * y * z + 2 * x * w, 1 - 2 * x * x - 2 * y * y]

/-- `sin(θ / 2) / θ` in `SO3.exp`. -/
noncomputable def sinHalfOver (θ : ℝ) : ℝ := if θ = 0 then 1 / 2 else Real.sin (θ / 2) / θ

/-- Euclidean norm of a triple. -/
noncomputable def norm3 (x y z : ℝ) : ℝ := √(x * x + y * y + z * z)

/-- `SO3.exp`. -/
noncomputable def so3Exp (d : List ℝ) : List ℝ :=
  let θ := norm3 (d.getD 0 0) (d.getD 1 0) (d.getD 2 0)
  [Real.cos (θ / 2), sinHalfOver θ * d.getD 0 0, sinHalfOver θ * d.getD 1 0, sinHalfOver θ * d.getD 2 0]

/-- `atan_factor` in `SO3.log`, from the scalar part `w` and the norm `n` of the vector part. -/
noncomputable def atanFactor (w n : ℝ) : ℝ :=
  if n = 0 then 2 / w
  else if w = 0 then -Real.pi / n
  else 2 * arctan2 (if w < 0 then -n else n) |w| / n

/-- `SO3.log`. -/
noncomputable def so3Log (a : List ℝ) : List ℝ :=
  let k := atanFactor (a.getD 0 0) (norm3 (a.getD 1 0) (a.getD 2 0) (a.getD 3 0))
  [k * a.getD 1 0, k * a.getD 2 0, k * a.getD 3 0]

/-- `rplus_jacobian_parameters_wrt_delta` of an SO(3) element, row major, 4 x 3. -/
noncomputable def so3RplusJacobian (a : List ℝ) : List ℝ :=
  let w := a.getD 0 0; let x := a.getD 1 0; let y := a.getD 2 0; let z := a.getD 3 0
  [-x / 2, -y / 2, -z / 2, w / 2, -z / 2, y / 2, z / 2, w / 2, -x / 2, -y / 2, x / 2, w / 2]

/-- `jaxlie.SO3`. -/
noncomputable def so3 : LieGroup where
  treedef := 3
  parametersDim := 4
  tangentDim := 3
  identity := [1, 0, 0, 0]
  multiply := so3Mul
  inverse := so3Inv
  exp := so3Exp
  log := so3Log
  adjoint := fun a => ⟨[3, 3], so3Matrix a⟩
  rplusJacobian := fun a => ⟨[4, 3], so3RplusJacobian a⟩

/-! ### SE(3): parameters `(w, x, y, z, tx, ty, tz)`, tangents `(v, omega)` -/

/-- Product of a 3 x 3 matrix (row major) and a vector. -/
def mul3 (m v : List ℝ) : List ℝ :=
  [m.getD 0 0 * v.getD 0 0 + m.getD 1 0 * v.getD 1 0 + m.getD 2 0 * v.getD 2 0,
    m.getD 3 0 * v.getD 0 0 + m.getD 4 0 * v.getD 1 0 + m.getD 5 0 * v.getD 2 0,
    m.getD 6 0 * v.getD 0 0 + m.getD 7 0 * v.getD 1 0 + m.getD 8 0 * v.getD 2 0]

/-- `I + b * skew(omega) + c * skew(omega) @ skew(omega)`, row major. -/
def skewPoly (b c : ℝ) (ω : List ℝ) : List ℝ :=
  let x := ω.getD 0 0; let y := ω.getD 1 0; let z := ω.getD 2 0
  [1 + c * (-(y * y) - z * z), b * -z + c * (x * y), b * y + c * (x * z),
    b * z + c * (x * y), 1 + c * (-(x * x) - z * z), b * -x + c * (y * z),
    b * -y + c * (x * z), b * x + c * (y * z), 1 + c * (-(x * x) - y * y)]

/-- `(1 - cos θ) / θ²` in `SE3.exp`. -/
noncomputable def expCoeffB (θ : ℝ) : ℝ := if θ = 0 then 1 / 2 else (1 - Real.cos θ) / θ ^ 2

/-- `(θ - sin θ) / θ³` in `SE3.exp`. -/
noncomputable def expCoeffC (θ : ℝ) : ℝ := if θ = 0 then 1 / 6 else (θ - Real.sin θ) / θ ^ 3

/-- `(1 - θ cos(θ/2) / (2 sin(θ/2))) / θ²` in `SE3.log`. -/
noncomputable def logCoeffC (θ : ℝ) : ℝ :=
  if θ = 0 then 1 / 12 else (1 - θ * Real.cos (θ / 2) / (2 * Real.sin (θ / 2))) / θ ^ 2

/-- `SE3.multiply`: the first four parameters are the rotation, the last three the translation. -/
def se3Mul (a b : List ℝ) : List ℝ :=
  so3Mul (a.take 4) (b.take 4) ++ List.zipWith (· + ·) (mul3 (so3Matrix (a.take 4)) (b.drop 4)) (a.drop 4)

/-- `SE3.inverse`. -/
def se3Inv (a : List ℝ) : List ℝ :=
  so3Inv (a.take 4) ++ (mul3 (so3Matrix (so3Inv (a.take 4))) (a.drop 4)).map (-·)

/-- `SE3.exp`. -/
noncomputable def se3Exp (d : List ℝ) : List ℝ :=
  let ω := d.drop 3
  let θ := norm3 (ω.getD 0 0) (ω.getD 1 0) (ω.getD 2 0)
  so3Exp ω ++ mul3 (skewPoly (expCoeffB θ) (expCoeffC θ) ω) (d.take 3)

/-- `SE3.log`. -/
noncomputable def se3Log (a : List ℝ) : List ℝ :=
  let ω := so3Log (a.take 4)
  let θ := norm3 (ω.getD 0 0) (ω.getD 1 0) (ω.getD 2 0)
  mul3 (skewPoly (-1 / 2) (logCoeffC θ) ω) (a.drop 4) ++ ω

/-- `skew(t) @ R`, row major, for a vector `t` and a 3 x 3 matrix `R`. -/
def skewMul (t R : List ℝ) : List ℝ :=
  let x := t.getD 0 0; let y := t.getD 1 0; let z := t.getD 2 0
  [-z * R.getD 3 0 + y * R.getD 6 0, -z * R.getD 4 0 + y * R.getD 7 0, -z * R.getD 5 0 + y * R.getD 8 0,
    z * R.getD 0 0 - x * R.getD 6 0, z * R.getD 1 0 - x * R.getD 7 0, z * R.getD 2 0 - x * R.getD 8 0,
    -y * R.getD 0 0 + x * R.getD 3 0, -y * R.getD 1 0 + x * R.getD 4 0, -y * R.getD 2 0 + x * R.getD 5 0]

/-- `SE3.adjoint`: `[[R, skew(t) @ R], [0, R]]`. -/
def se3Adjoint (a : List ℝ) : List ℝ :=
  let R := so3Matrix (a.take 4)
  let S := skewMul (a.drop 4) R
  R.take 3 ++ S.take 3 ++ (slice R 3 3 ++ slice S 3 3) ++ (slice R 6 3 ++ slice S 6 3) ++
    ([0, 0, 0] ++ R.take 3) ++ ([0, 0, 0] ++ slice R 3 3) ++ ([0, 0, 0] ++ slice R 6 3)

/-- `rplus_jacobian_parameters_wrt_delta` of an SE(3) element, row major, 7 x 6. -/
noncomputable def se3RplusJacobian (a : List ℝ) : List ℝ :=
  let R := so3Matrix (a.take 4)
  let J := so3RplusJacobian (a.take 4)
  ([0, 0, 0] ++ slice J 0 3) ++ ([0, 0, 0] ++ slice J 3 3) ++ ([0, 0, 0] ++ slice J 6 3) ++ ([0, 0, 0] ++ slice J 9 3) ++
    (slice R 0 3 ++ [0, 0, 0]) ++ (slice R 3 3 ++ [0, 0, 0]) ++ (slice R 6 3 ++ [0, 0, 0])

/-- `jaxlie.SE3`. -/
noncomputable def se3 : LieGroup where
  treedef := 4
  parametersDim := 7
  tangentDim := 6
  identity := [1, 0, 0, 0, 0, 0, 0]
  multiply := se3Mul
  inverse := se3Inv
  exp := se3Exp
  log := se3Log
  adjoint := fun a => ⟨[6, 6], se3Adjoint a⟩
  rplusJacobian := fun a => ⟨[7, 6], se3RplusJacobian a⟩

end LieGroup

/-! ### Variables -/

/-- A group element as a pytree: one leaf, the parameter vector. -/
def LieGroup.value (G : LieGroup) (x : List ℝ) : Value ℝ := ⟨G.treedef, [⟨[G.parametersDim], x⟩]⟩

/-- `LieVariableBase` with `get_group_type()` returning `G`: default value (jaxfg/geometry/_lie_variables.py:27-31), local
dimension (35-39) and retraction (41-45). -/
def LieGroup.varClass (G : LieGroup) : VarClass ℝ where
  default := G.value G.identity
  localDim := G.tangentDim
  retract := fun x d => G.value (G.rplus x.flatten d)

/-- `SO2Variable`, jaxfg/geometry/_lie_variables.py:57-61. -/
noncomputable def SO2Variable : VarClass ℝ := LieGroup.so2.varClass
/-- `SE2Variable`, jaxfg/geometry/_lie_variables.py:64-68. -/
noncomputable def SE2Variable : VarClass ℝ := LieGroup.se2.varClass
/-- `SO3Variable`, jaxfg/geometry/_lie_variables.py:71-75. -/
noncomputable def SO3Variable : VarClass ℝ := LieGroup.so3.varClass
/-- `SE3Variable`, jaxfg/geometry/_lie_variables.py:78-82. -/
noncomputable def SE3Variable : VarClass ℝ := LieGroup.se3.varClass

/-- `LieVariableBase.manifold_retract_jacobian(x)`, jaxfg/geometry/_lie_variables.py:50-54: one array for the one leaf. -/
def LieGroup.retractJacobian (G : LieGroup) (x : Value ℝ) : List (Arr ℝ) := [G.rplusJacobian x.flatten]

/-! ### Factors -/

/-- `isinstance(x, jaxlie.MatrixLieGroup)`. -/
def isLieGroup : TyHint := fun t => decide (t ∈ [1, 2, 3, 4])

/-- `-jnp.eye(n)`. -/
def negEye (n : Nat) : Arr ℝ :=
  ⟨[n, n], (List.range n).flatMap fun i => (List.range n).map fun j => -(if i = j then 1 else 0)⟩

/-- `PriorFactor`, jaxfg/geometry/_factors.py:20-60, whose `mu` belongs to the group `G` (a static part of the factor's
pytree, so part of the class number here). The parameters of `mu` are the only array field. -/
def priorFactorClass (G : LieGroup) : FactorClass where
  hint := some (.tuple [isLieGroup])
  residual := fun self vals => G.rminus ((vals.getD 0 ⟨0, []⟩).flatten) ((self.params.getD 0 ⟨[], []⟩).data)
  jacobians := fun _ _ => [negEye G.tangentDim]

/-- `BetweenFactor`, jaxfg/geometry/_factors.py:71-124, whose `T_a_b` belongs to the group `G`. The assertion that both values
have the same type (118) is the hypothesis that both variables have class `G.varClass`. -/
def betweenFactorClass (G : LieGroup) : FactorClass where
  hint := some (.named [isLieGroup, isLieGroup])
  residual := fun self vals =>
    G.rminus (G.multiply (G.inverse (vals.getD 0 ⟨0, []⟩).flatten) (vals.getD 1 ⟨0, []⟩).flatten)
      ((self.params.getD 0 ⟨[], []⟩).data)
  jacobians := fun _ vals =>
    [G.adjoint (G.inverse (G.multiply (G.inverse (vals.getD 0 ⟨0, []⟩).flatten) (vals.getD 1 ⟨0, []⟩).flatten)),
      negEye G.tangentDim]

/-- `PriorFactor.make(variable, mu, noise_model)`, jaxfg/geometry/_factors.py:32-42; `cls` is the class number. -/
def PriorFactor.make (cls : Nat) (v : Var) (mu : Value ℝ) (noise : Noise) : Factor :=
  ⟨cls, [v], noise, mu.leaves⟩

/-- `BetweenFactor.make(variable_T_world_a, variable_T_world_b, T_a_b, noise_model)`, jaxfg/geometry/_factors.py:80-97.
`groupType t` is the Python class `get_group_type()` returns for variables of class `t`. -/
def BetweenFactor.make (cls : Nat) (groupType : Ty → Nat) (a b : Var) (T_a_b : Value ℝ) (noise : Noise) : Py Factor := do
  pyAssert (a.ty = b.ty)
  pyAssert (groupType a.ty = T_a_b.treedef)
  return ⟨cls, [a, b], noise, T_a_b.leaves⟩

end Jaxfg
