/-
Reading pose graphs from g2o files: scripts/_g2o_utils.py.

The conversions `int(...)` and `float(...)` of Python are arguments of the model; numbers are exact reals. The progress bar
(`tqdm`) is not modelled.
-/
import Verif.Model.Lie

namespace Jaxfg

/-- Python's `int(s)` and `float(s)` for a string, raising `ValueError`. -/
structure Reader where
  int : List Char → Py Int
  float : List Char → Py ℝ

/-- Whitespace that `str.strip()` removes: the characters for which Python's `str.isspace` holds, by their numbers. -/
def isSpace (c : Char) : Bool :=
  let n := c.toNat
  (9 ≤ n && n ≤ 13) || (28 ≤ n && n ≤ 32) || n == 0x85 || n == 0xa0 || n == 0x1680 || (0x2000 ≤ n && n ≤ 0x200a) ||
    n == 0x2028 || n == 0x2029 || n == 0x202f || n == 0x205f || n == 0x3000

/-- `line.strip()`, scripts/_g2o_utils.py:23. -/
def strip (l : List Char) : List Char := ((l.dropWhile isSpace).reverse.dropWhile isSpace).reverse

/-- `s.split(" ")`: always at least one part. -/
def splitSpace : List Char → List (List Char)
  | [] => [[]]
  | c :: l =>
    if c = ' ' then [] :: splitSpace l
    else match splitSpace l with
      | p :: ps => (c :: p) :: ps
      | [] => [[c]]

/-- `[part for part in line.split(" ") if part != ""]`, scripts/_g2o_utils.py:31, for the stripped line. -/
def fields (line : List Char) : List (List Char) := (splitSpace (strip line)).filter (· ≠ [])

/-- `l[i]` with Python's negative indices. -/
def pyGet {α} (l : List α) (i : Int) : Py α :=
  let n : Int := if i < 0 then i + l.length else i
  if n < 0 then .error .index
  else match l[n.toNat]? with
    | some x => .ok x
    | none => .error .index

/-- Python classes: `SE2Variable`, `SE3Variable`. -/
def se2Ty : Ty := 2
def se3Ty : Ty := 4

/-- `get_group_type()` of the variable classes that occur. -/
noncomputable def g2oGroup (t : Ty) : LieGroup := if t = se3Ty then .se3 else .se2

/-- The variable classes that occur. -/
noncomputable def g2oClasses (t : Ty) : VarClass ℝ := (g2oGroup t).varClass

/-- The factor classes that occur, by static structure: between SE(2), prior SE(2), between SE(3), prior SE(3). -/
noncomputable def g2oFactors (n : Nat) : FactorClass :=
  if n = 0 then betweenFactorClass .se2 else if n = 1 then priorFactorClass .se2
  else if n = 2 then betweenFactorClass .se3 else priorFactorClass .se3

/-- Class number of a between factor for an element of this group (given by its Python class). -/
noncomputable def betweenCls (treedef : Nat) : Nat := if treedef = LieGroup.se3.treedef then 2 else 0

/-- Class number of a prior factor for an element of this group. -/
noncomputable def priorCls (treedef : Nat) : Nat := if treedef = LieGroup.se3.treedef then 3 else 1

/-- `onp.triu_indices(n)`: row by row. -/
def triuIndices (n : Nat) : List (Nat × Nat) :=
  (List.range n).flatMap fun i => ((List.range n).filter fun j => i ≤ j).map fun j => (i, j)

/-- `matrix[onp.triu_indices(n)] = components` for an `(n, n)` array; one component is broadcast, other sizes raise. -/
def setTriu (n : Nat) (a : Arr ℝ) (u : List ℝ) : Py (Arr ℝ) :=
  let idx := (triuIndices n).map fun p => p.1 * n + p.2
  if u.length = idx.length then .ok ⟨a.shape, scatterSet a.data (idx.zip u)⟩
  else match u with
    | [x] => .ok ⟨a.shape, scatterSet a.data (idx.map fun i => (i, x))⟩
    | _ => .error .value

/-- `matrix.T` of an `(n, n)` array. -/
noncomputable def transposeArr (n : Nat) (a : Arr ℝ) : Arr ℝ := .of2 n n fun i j => a.at2 n j i

/-- The precision matrix of an edge: scripts/_g2o_utils.py:59-63, 105-108. -/
noncomputable def precisionMatrix (n : Nat) (u : List ℝ) : Py (Arr ℝ) := do
  let a ← setTriu n ⟨[n, n], List.replicate (n * n) 0⟩ u
  setTriu n (transposeArr n a) u

/-- `onp.linalg.cholesky(matrix).T`: scripts/_g2o_utils.py:64, 110. Raises (`LinAlgError`) if the matrix is not positive
definite. -/
noncomputable def sqrtPrecision (n : Nat) (P : Arr ℝ) : Py (Arr ℝ) :=
  open Classical in
  if ∃ L, IsCholesky (P.toMat n n) L then .ok (.ofMat (cholesky (P.toMat n n)).transpose) else .error .value

/-- `jaxlie.SE2.from_xy_theta(x, y, theta)` (library). -/
noncomputable def se2FromXyTheta (x y θ : ℝ) : List ℝ := [Real.cos θ, Real.sin θ, x, y]

/-- The state of the loop; `next` is the identity of the next object. -/
structure G2oState where
  next : Nat
  poseVariables : List Var
  initialPoses : PyDict Var (Value ℝ)
  factors : List Factor

/-- `G2OData`, scripts/_g2o_utils.py:13-16. -/
structure G2oData where
  factors : List Factor
  initialPoses : PyDict Var (Value ℝ)

/-- A new pose variable with the given initial value: scripts/_g2o_utils.py:45-47, 82-86. -/
noncomputable def G2oState.addPose (s : G2oState) (t : Ty) (x : List ℝ) : G2oState :=
  let v : Var := ⟨t, s.next⟩
  ⟨s.next + 1, s.poseVariables ++ [v], s.initialPoses.set v ((g2oGroup t).value x), s.factors⟩

/-- A new between factor: scripts/_g2o_utils.py:59-75, 105-121. -/
noncomputable def G2oState.addEdge (s : G2oState) (i j : Int) (G : LieGroup) (T u : List ℝ) : Py G2oState := do
  let P ← precisionMatrix G.tangentDim u
  let W ← sqrtPrecision G.tangentDim P
  let a ← pyGet s.poseVariables i
  let b ← pyGet s.poseVariables j
  let f ← BetweenFactor.make (betweenCls G.treedef) (fun t => (g2oGroup t).treedef) a b (G.value T) (.gaussian W)
  return { s with factors := s.factors ++ [f] }

/-- The branch for `VERTEX_SE2`: scripts/_g2o_utils.py:36-47. -/
noncomputable def G2oState.vertexSE2 (R : Reader) (limit : Int) (s : G2oState) (parts : List (List Char)) : Py G2oState :=
  if limit < s.poseVariables.length then .ok s
  else match parts with
    | [_, index, x, y, θ] => do
      let index ← R.int index
      let x ← R.float x
      let y ← R.float y
      let θ ← R.float θ
      pyAssert ((s.initialPoses.items.length : Int) = index)
      return s.addPose se2Ty (se2FromXyTheta x y θ)
    | _ => .error .value

/-- The branch for `EDGE_SE2`: scripts/_g2o_utils.py:49-75. -/
noncomputable def G2oState.edgeSE2 (R : Reader) (limit : Int) (s : G2oState) (parts : List (List Char)) : Py G2oState := do
  let i ← R.int (← pyGet parts 1)
  let j ← R.int (← pyGet parts 2)
  if limit < i ∨ limit < j then return s
  let xs ← ((parts.drop 3).take 3).mapM R.float
  match xs with
  | [x, y, θ] =>
    let u ← (parts.drop 6).mapM R.float
    s.addEdge i j .se2 (se2FromXyTheta x y θ) u
  | _ => .error .type

/-- The branch for `VERTEX_SE3:QUAT`: scripts/_g2o_utils.py:77-86. -/
noncomputable def G2oState.vertexSE3 (R : Reader) (s : G2oState) (parts : List (List Char)) : Py G2oState :=
  match parts with
  | [_, index, x, y, z, qx, qy, qz, qw] => do
    let index ← R.int index
    pyAssert ((s.initialPoses.items.length : Int) = index)
    let p ← [qw, qx, qy, qz, x, y, z].mapM R.float
    return s.addPose se3Ty p
  | _ => .error .value

/-- The branch for `EDGE_SE3:QUAT`: scripts/_g2o_utils.py:88-121. `from_quaternion_xyzw` moves the scalar part to the front. -/
noncomputable def G2oState.edgeSE3 (R : Reader) (s : G2oState) (parts : List (List Char)) : Py G2oState := do
  let i ← R.int (← pyGet parts 1)
  let j ← R.int (← pyGet parts 2)
  let xs ← (parts.drop 3).mapM R.float
  pyAssert (xs.length = 7 + 21)
  s.addEdge i j .se3 (slice xs 6 1 ++ slice xs 3 3 ++ slice xs 0 3) (xs.drop 7)

/-- The body of the loop, for the fields of one line: scripts/_g2o_utils.py:31-123. -/
noncomputable def G2oState.line (R : Reader) (limit : Int) (s : G2oState) (parts : List (List Char)) : Py G2oState := do
  let kind ← pyGet parts 0
  if kind = "VERTEX_SE2".toList then s.vertexSE2 R limit parts
  else if kind = "EDGE_SE2".toList then s.edgeSE2 R limit parts
  else if kind = "VERTEX_SE3:QUAT".toList then s.vertexSE3 R parts
  else if kind = "EDGE_SE3:QUAT".toList then s.edgeSE3 R parts
  else .error .assertion

/-- `parse_g2o(path, pose_count_limit)`, scripts/_g2o_utils.py:19-136, for the lines of the file; `next` objects exist before. -/
noncomputable def parseG2o (R : Reader) (limit : Int) (next : Nat) (lines : List (List Char)) : Py G2oData := do
  let s ← lines.foldlM (fun s l => s.line R limit (fields l)) (⟨next, [], .empty, []⟩ : G2oState)
  let v ← pyGet s.poseVariables 0
  let mu ← s.initialPoses.get v
  let prior := PriorFactor.make (priorCls mu.treedef) v mu
    (.diagonal ⟨[(g2oGroup v.ty).tangentDim], List.replicate (g2oGroup v.ty).tangentDim (1 * 100)⟩)
  return ⟨s.factors ++ [prior], s.initialPoses⟩

end Jaxfg
