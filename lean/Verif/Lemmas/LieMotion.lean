/- Parameter vectors and the motions they stand for; pose variables and factors in graphs. -/
import Verif.Lemmas.LieSE3Laws
import Verif.Lemmas.Graph
import Mathlib.LinearAlgebra.Matrix.NonsingularInverse

namespace Jaxfg
open Spec Filter Topology LieGroup
open Matrix

theorem lieLaws (k : LieType) : LieLaws k.ops k.Valid := by
  cases k
  · exact so2_laws
  · exact se2_laws
  · exact so3_laws
  · exact se3_laws

theorem mul_so2 (c s c' s' : ℝ) : (!![c * c' - s * s', -(s * c' + c * s'); s * c' + c * s', c * c' - s * s'] : Matrix (Fin 2) (Fin 2) ℝ) =
    !![c, -s; s, c] * !![c', -s'; s', c'] := by
  ext i j
  fin_cases i <;> fin_cases j <;> simp [Matrix.mul_apply, Fin.sum_univ_two] <;> ring

theorem mul_se2 (c s a b c' s' a' b' : ℝ) : (!![c * c' - s * s', -(s * c' + c * s'), c * a' - s * b' + a;
    s * c' + c * s', c * c' - s * s', s * a' + c * b' + b; 0, 0, 1] : Matrix (Fin 3) (Fin 3) ℝ) =
    !![c, -s, a; s, c, b; 0, 0, 1] * !![c', -s', a'; s', c', b'; 0, 0, 1] := by
  ext i j
  fin_cases i <;> fin_cases j <;> simp [Matrix.mul_apply, Fin.sum_univ_three] <;> ring

/-- Rotation matrix of a quaternion. -/
def quatMatrix (w i j k : ℝ) : Matrix (Fin 3) (Fin 3) ℝ :=
  !![w ^ 2 + i ^ 2 - j ^ 2 - k ^ 2, 2 * (i * j - w * k), 2 * (i * k + w * j);
      2 * (i * j + w * k), w ^ 2 - i ^ 2 + j ^ 2 - k ^ 2, 2 * (j * k - w * i);
      2 * (i * k - w * j), 2 * (j * k + w * i), w ^ 2 - i ^ 2 - j ^ 2 + k ^ 2]

/-- Matrix of a rigid motion. -/
def poseMatrix (w i j k a b c : ℝ) : Matrix (Fin 4) (Fin 4) ℝ :=
  !![w ^ 2 + i ^ 2 - j ^ 2 - k ^ 2, 2 * (i * j - w * k), 2 * (i * k + w * j), a;
      2 * (i * j + w * k), w ^ 2 - i ^ 2 + j ^ 2 - k ^ 2, 2 * (j * k - w * i), b;
      2 * (i * k - w * j), 2 * (j * k + w * i), w ^ 2 - i ^ 2 - j ^ 2 + k ^ 2, c;
      0, 0, 0, 1]

theorem mul_so3 (w x y z w' x' y' z' : ℝ) :
    quatMatrix (-x * x' - y * y' - z * z' + w * w') (x * w' + y * z' - z * y' + w * x') (-x * z' + y * w' + z * x' + w * y')
      (x * y' - y * x' + z * w' + w * z') = quatMatrix w x y z * quatMatrix w' x' y' z' := by
  ext i j
  fin_cases i <;> fin_cases j <;> simp [quatMatrix, Matrix.mul_apply, Fin.sum_univ_three] <;> ring

theorem mul_se3 (w x y z a b c w' x' y' z' a' b' c' : ℝ) :
    poseMatrix (-x * x' - y * y' - z * z' + w * w') (x * w' + y * z' - z * y' + w * x') (-x * z' + y * w' + z * x' + w * y')
      (x * y' - y * x' + z * w' + w * z')
      ((w ^ 2 + x ^ 2 - y ^ 2 - z ^ 2) * a' + 2 * (x * y - w * z) * b' + 2 * (x * z + w * y) * c' + a)
      (2 * (x * y + w * z) * a' + (w ^ 2 - x ^ 2 + y ^ 2 - z ^ 2) * b' + 2 * (y * z - w * x) * c' + b)
      (2 * (x * z - w * y) * a' + 2 * (y * z + w * x) * b' + (w ^ 2 - x ^ 2 - y ^ 2 + z ^ 2) * c' + c) =
    poseMatrix w x y z a b c * poseMatrix w' x' y' z' a' b' c' := by
  ext i j
  fin_cases i <;> fin_cases j <;> simp [poseMatrix, Matrix.mul_apply, Fin.sum_univ_four] <;> ring

theorem motion_mul (k : LieType) {x y : List ℝ} (hx : k.Valid x) (hy : k.Valid y) :
    k.motion (k.ops.multiply x y) = k.motion x * k.motion y := by
  cases k
  · obtain ⟨c, s, rfl, h⟩ := hx
    obtain ⟨c', s', rfl, h'⟩ := hy
    exact mul_so2 c s c' s'
  · obtain ⟨c, s, a, b, rfl, h⟩ := hx
    obtain ⟨c', s', a', b', rfl, h'⟩ := hy
    exact mul_se2 c s a b c' s' a' b'
  · obtain ⟨w, i, j, k, rfl, h⟩ := hx
    obtain ⟨w', i', j', k', rfl, h'⟩ := hy
    exact mul_so3 w i j k w' i' j' k'
  · obtain ⟨w, i, j, k, a, b, c, rfl, h⟩ := hx
    obtain ⟨w', i', j', k', a', b', c', rfl, h'⟩ := hy
    have e : LieType.se3.ops.multiply [w, i, j, k, a, b, c] [w', i', j', k', a', b', c'] =
        so3Mul [w, i, j, k] [w', i', j', k'] ++ add3 (mul3 (so3Matrix [w, i, j, k]) [a', b', c']) [a, b, c] := rfl
    rw [e, so3Matrix_unit h]
    exact mul_se3 w i j k a b c w' i' j' k' a' b' c'

theorem quatMatrix_one : quatMatrix 1 0 0 0 = 1 := by
  ext i j
  fin_cases i <;> fin_cases j <;> simp [quatMatrix]

theorem poseMatrix_one : poseMatrix 1 0 0 0 0 0 0 = 1 := by
  ext i j
  fin_cases i <;> fin_cases j <;> simp [poseMatrix]

theorem so2_one : (!![(1:ℝ), -0; 0, 1] : Matrix (Fin 2) (Fin 2) ℝ) = 1 := by
  ext i j
  fin_cases i <;> fin_cases j <;> simp

theorem se2_one : (!![(1:ℝ), -0, 0; 0, 1, 0; 0, 0, 1] : Matrix (Fin 3) (Fin 3) ℝ) = 1 := by
  ext i j
  fin_cases i <;> fin_cases j <;> simp

theorem motion_one (k : LieType) : k.motion k.ops.identity = 1 := by
  cases k
  · exact so2_one
  · exact se2_one
  · exact quatMatrix_one
  · exact poseMatrix_one

/-- A quaternion and its negative describe the same rotation. -/
theorem quatMatrix_neg (w i j k : ℝ) : quatMatrix (-w) (-i) (-j) (-k) = quatMatrix w i j k := by
  simp only [quatMatrix, neg_sq, neg_mul_neg]

theorem poseMatrix_neg (w i j k a b c : ℝ) : poseMatrix (-w) (-i) (-j) (-k) a b c = poseMatrix w i j k a b c := by
  simp only [poseMatrix, neg_sq, neg_mul_neg]

/-- Only two unit quaternions describe the identity. -/
theorem quat_of_diag {w i j k : ℝ} (h : w ^ 2 + i ^ 2 + j ^ 2 + k ^ 2 = 1) (h0 : w ^ 2 + i ^ 2 - j ^ 2 - k ^ 2 = 1)
    (h1 : w ^ 2 - i ^ 2 + j ^ 2 - k ^ 2 = 1) : (w = 1 ∨ w = -1) ∧ i = 0 ∧ j = 0 ∧ k = 0 := by
  have hi : i ^ 2 = 0 := by nlinarith [sq_nonneg i, sq_nonneg j, sq_nonneg k]
  have hj : j ^ 2 = 0 := by nlinarith [sq_nonneg i, sq_nonneg j, sq_nonneg k]
  have hk : k ^ 2 = 0 := by nlinarith [sq_nonneg i, sq_nonneg j, sq_nonneg k]
  refine ⟨eq_one_or_of_sq (by linarith), ?_, ?_, ?_⟩
  · simpa using hi
  · simpa using hj
  · simpa using hk

/-- The logarithm of an element is zero exactly if the element is the identity motion. -/
theorem log_eq_zero_iff (k : LieType) {x : List ℝ} (hx : k.Valid x) :
    k.ops.log x = List.replicate k.ops.tangentDim 0 ↔ k.motion x = 1 := by
  cases k
  · obtain ⟨c, s, rfl, h⟩ := hx
    constructor
    · intro hl
      have h0 : arctan2 s c = 0 := by simpa [LieType.ops, so2] using hl
      have hcs := cos_sin_arctan2 h
      rw [h0, Real.cos_zero, Real.sin_zero] at hcs
      obtain ⟨rfl, rfl⟩ := hcs
      exact so2_one
    · intro hm
      have hm' : (!![c, -s; s, c] : Matrix (Fin 2) (Fin 2) ℝ) = 1 := hm
      have h0 : c = 1 := by simpa using congrFun (congrFun hm' 0) 0
      have h1 : s = 0 := by simpa using congrFun (congrFun hm' 1) 0
      subst h0 h1
      show [arctan2 0 1] = [0]
      rw [show arctan2 0 1 = 0 by simp [arctan2, show (⟨1, 0⟩ : ℂ) = 1 from rfl]]
  · constructor
    · intro hl
      have hl' : se2Log x = [0, 0, 0] := hl
      have : x = [1, 0, 0, 0] := by
        rw [← se2_exp_log hx, hl']
        simp [se2Exp]
      rw [this]
      exact se2_one
    · obtain ⟨c, s, a, b, rfl, h⟩ := hx
      intro hm
      have hm' : (!![c, -s, a; s, c, b; 0, 0, 1] : Matrix (Fin 3) (Fin 3) ℝ) = 1 := hm
      have h0 : c = 1 := by simpa using congrFun (congrFun hm' 0) 0
      have h1 : s = 0 := by simpa using congrFun (congrFun hm' 1) 0
      have h2 : a = 0 := by simpa using congrFun (congrFun hm' 0) 2
      have h3 : b = 0 := by simpa using congrFun (congrFun hm' 1) 2
      subst h0 h1 h2 h3
      show se2Log [1, 0, 0, 0] = [0, 0, 0]
      have he : se2Exp [0, 0, 0] = [1, 0, 0, 0] := by simp [se2Exp]
      rw [← he, se2_log_exp rfl (by simp [Real.pi_pos]) (by simp [Real.pi_pos.le])]
  · constructor
    · intro hl
      rcases so3_log_zero hx hl with rfl | rfl
      · exact quatMatrix_one
      · show quatMatrix (-1) 0 0 0 = 1
        rw [← quatMatrix_one, ← quatMatrix_neg 1 0 0 0, neg_zero]
    · obtain ⟨w, i, j, k, rfl, h⟩ := hx
      intro hm
      have hm' : quatMatrix w i j k = 1 := hm
      have h0 : w ^ 2 + i ^ 2 - j ^ 2 - k ^ 2 = 1 := by simpa [quatMatrix] using congrFun (congrFun hm' 0) 0
      have h1 : w ^ 2 - i ^ 2 + j ^ 2 - k ^ 2 = 1 := by simpa [quatMatrix] using congrFun (congrFun hm' 1) 1
      obtain ⟨_, rfl, rfl, rfl⟩ := quat_of_diag h h0 h1
      show so3Log [w, 0, 0, 0] = [0, 0, 0]
      simp [so3Log]
  · constructor
    · intro hl
      rcases se3_log_zero hx hl with rfl | rfl
      · exact poseMatrix_one
      · show poseMatrix (-1) 0 0 0 0 0 0 = 1
        rw [← poseMatrix_one, ← poseMatrix_neg 1 0 0 0, neg_zero]
    · obtain ⟨w, i, j, k, a, b, c, rfl, h⟩ := hx
      intro hm
      have hm' : poseMatrix w i j k a b c = 1 := hm
      have h0 : w ^ 2 + i ^ 2 - j ^ 2 - k ^ 2 = 1 := by simpa [poseMatrix] using congrFun (congrFun hm' 0) 0
      have h1 : w ^ 2 - i ^ 2 + j ^ 2 - k ^ 2 = 1 := by simpa [poseMatrix] using congrFun (congrFun hm' 1) 1
      have ha : a = 0 := by simpa [poseMatrix] using congrFun (congrFun hm' 0) 3
      have hb : b = 0 := by simpa [poseMatrix] using congrFun (congrFun hm' 1) 3
      have hc : c = 0 := by simpa [poseMatrix] using congrFun (congrFun hm' 2) 3
      obtain ⟨_, rfl, rfl, rfl⟩ := quat_of_diag h h0 h1
      subst ha hb hc
      show se3Log [w, 0, 0, 0, 0, 0, 0] = [0, 0, 0, 0, 0, 0]
      simp [se3Log, so3Log, mul3]

theorem motion_inv_mul (k : LieType) {x : List ℝ} (hx : k.Valid x) : k.motion (k.ops.inverse x) * k.motion x = 1 := by
  rw [← motion_mul k ((lieLaws k).inv _ hx) hx, (lieLaws k).inv_mul _ hx, motion_one]

theorem motion_mul_inv (k : LieType) {x : List ℝ} (hx : k.Valid x) : k.motion x * k.motion (k.ops.inverse x) = 1 := by
  rw [← motion_mul k hx ((lieLaws k).inv _ hx), (lieLaws k).mul_inv _ hx, motion_one]

/-- `rminus(a, b)` is zero exactly if `a` and `b` describe the same motion. -/
theorem rminus_eq_zero_iff (k : LieType) {a b : List ℝ} (ha : k.Valid a) (hb : k.Valid b) :
    k.ops.rminus a b = List.replicate k.ops.tangentDim 0 ↔ k.motion a = k.motion b := by
  rw [LieGroup.rminus, log_eq_zero_iff k ((lieLaws k).mul _ _ ((lieLaws k).inv _ ha) hb), motion_mul k ((lieLaws k).inv _ ha) hb]
  constructor
  · intro h
    calc k.motion a = k.motion a * (k.motion (k.ops.inverse a) * k.motion b) := by rw [h, mul_one]
      _ = k.motion b := by rw [← mul_assoc, motion_mul_inv k ha, one_mul]
  · intro h
    rw [← h, motion_inv_mul k ha]

/-! ### Pose variables and factors in graphs -/

theorem value_flatten (G : LieGroup) (x : List ℝ) : (G.value x).flatten = x := by
  simp [LieGroup.value, Value.flatten]

theorem lie_paramDim (k : LieType) : k.ops.varClass.paramDim = k.ops.parametersDim := by
  show (k.ops.value k.ops.identity).flatten.length = _
  rw [value_flatten]
  exact (lieLaws k).len _ (lieLaws k).one

theorem isValueOf_lie (k : LieType) {v : Value ℝ} :
    IsValueOf k.ops.varClass v ↔ ∃ x, v = k.ops.value x ∧ x.length = k.ops.parametersDim := by
  constructor
  · rintro ⟨h1, h2, h3⟩
    obtain ⟨td, ls⟩ := v
    obtain ⟨l, rfl⟩ : ∃ l, ls = [l] := by
      have := congrArg List.length h2
      simpa [LieGroup.varClass, LieGroup.value, List.length_eq_one_iff] using this
    obtain ⟨sh, x⟩ := l
    have h2' : sh = [k.ops.parametersDim] := by simpa [LieGroup.varClass, LieGroup.value] using h2
    subst h2'
    have h1' : td = k.ops.treedef := h1
    subst h1'
    refine ⟨x, rfl, ?_⟩
    have := h3 ⟨[k.ops.parametersDim], x⟩ (by simp)
    simpa using this
  · rintro ⟨x, rfl, h⟩
    refine ⟨rfl, rfl, ?_⟩
    intro a ha
    simp only [LieGroup.value, List.mem_singleton] at ha
    subst ha
    simpa using h

/-- Products have as many parameters as the left factor. -/
theorem multiply_length (k : LieType) (x y : List ℝ) (h : x.length = k.ops.parametersDim) :
    (k.ops.multiply x y).length = k.ops.parametersDim := by
  cases k
  · rfl
  · rfl
  · rfl
  · have h' : x.length = 7 := h
    show (se3Mul x y).length = 7
    simp [se3Mul, so3Mul, mul3, h']

theorem lie_wellShaped (k : LieType) : WellShaped k.ops.varClass.default := by
  intro a ha
  simp only [LieGroup.varClass, LieGroup.value, List.mem_singleton] at ha
  subst ha
  simpa using (lieLaws k).len _ (lieLaws k).one

theorem lie_retract (k : LieType) {x : Value ℝ} {d : List ℝ} (hx : IsValueOf k.ops.varClass x) :
    IsValueOf k.ops.varClass (k.ops.varClass.retract x d) := by
  obtain ⟨y, rfl, hy⟩ := (isValueOf_lie k).1 hx
  refine (isValueOf_lie k).2 ⟨_, rfl, ?_⟩
  rw [value_flatten]
  exact multiply_length k _ _ hy

theorem lie_treedef (k : LieType) : isLieGroup k.ops.treedef = true := by
  cases k <;> rfl

theorem lie_tangent_pos (k : LieType) : 0 < k.ops.tangentDim := by
  cases k <;> simp [LieType.ops, so2, se2, so3, se3]

theorem negEye_isMat (n : Nat) : IsMat (negEye n) n n := by
  refine ⟨rfl, ?_⟩
  simp [negEye]

end Jaxfg
