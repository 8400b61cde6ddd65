/- Conjugate gradients on infinities and NaN, after all measurements have been given another weight. -/
import Verif.Lemmas.Weight
import Verif.Lemmas.CgScalar

namespace Jaxfg
open Spec
open Ext (fin pinf ninf nan)

namespace Ext

theorem infMul_of_pos {x : ℝ} (h : 0 < x) : infMul x = pinf := if_pos h
theorem infMul_of_neg {x : ℝ} (h : x < 0) : infMul x = ninf := by
  unfold infMul; rw [if_neg (not_lt.2 h.le), if_pos h]
theorem infMul_zero : infMul 0 = nan := by unfold infMul; simp

theorem fin_mul_pinf {k : ℝ} (hk : 0 < k) : fin k * pinf = pinf := infMul_of_pos hk
theorem fin_mul_ninf {k : ℝ} (hk : 0 < k) : fin k * ninf = ninf := congrArg neg (infMul_of_pos hk)
theorem fin_mul_infMul {k : ℝ} (hk : 0 < k) (x : ℝ) : fin k * infMul x = infMul x := by
  rcases lt_trichotomy x 0 with h | rfl | h
  · rw [infMul_of_neg h, fin_mul_ninf hk]
  · rw [infMul_zero, mul_nan]
  · rw [infMul_of_pos h, fin_mul_pinf hk]
theorem fin_mul_neg (k : ℝ) (x : Ext) : fin k * neg x = neg (fin k * x) := by
  cases x with
  | fin x => exact congrArg fin (mul_neg k x)
  | pinf => rfl
  | ninf => show infMul k = neg (neg (infMul k)); cases infMul k <;> simp [neg]
  | nan => rfl

theorem smul_add {k : ℝ} (hk : 0 < k) (a b : Ext) : fin k * (a + b) = fin k * a + fin k * b := by
  cases a <;> cases b <;> first
    | exact congrArg fin (mul_add _ _ _)
    | (simp only [fin_mul_pinf hk, fin_mul_ninf hk, mul_nan]
       first | exact fin_mul_pinf hk | exact fin_mul_ninf hk | rfl)

theorem smul_sub {k : ℝ} (hk : 0 < k) (a b : Ext) : fin k * (a - b) = fin k * a - fin k * b := by
  show fin k * (a + neg b) = fin k * a + neg (fin k * b)
  rw [smul_add hk, fin_mul_neg]

theorem mul_comm' (a b : Ext) : a * b = b * a := by
  cases a <;> cases b <;> first | exact congrArg fin (mul_comm _ _) | rfl

theorem smul_mul {k : ℝ} (hk : 0 < k) (a b : Ext) : fin k * a * b = fin k * (a * b) := by
  cases a with
  | fin x => cases b with
    | fin y => exact congrArg fin (mul_assoc _ _ _)
    | pinf => show infMul (k * x) = fin k * infMul x; rw [infMul_scale hk, fin_mul_infMul hk]
    | ninf => show neg (infMul (k * x)) = fin k * neg (infMul x); rw [infMul_scale hk, fin_mul_neg, fin_mul_infMul hk]
    | nan => rfl
  | pinf => rw [fin_mul_pinf hk]; cases b with
    | fin y => exact (fin_mul_infMul hk y).symm
    | pinf => exact (fin_mul_pinf hk).symm
    | ninf => exact (fin_mul_ninf hk).symm
    | nan => rfl
  | ninf => rw [fin_mul_ninf hk]; cases b with
    | fin y => show neg (infMul y) = fin k * neg (infMul y); rw [fin_mul_neg, fin_mul_infMul hk]
    | pinf => exact (fin_mul_ninf hk).symm
    | ninf => exact (fin_mul_pinf hk).symm
    | nan => rfl
  | nan => cases b <;> rfl

theorem mul_smul {k : ℝ} (hk : 0 < k) (a b : Ext) : a * (fin k * b) = fin k * (a * b) := by
  rw [mul_comm', smul_mul hk, mul_comm' b a]

theorem smul_smul {j k : ℝ} (hj : 0 < j) (a : Ext) : fin j * (fin k * a) = fin (j * k) * a := (smul_mul hj (fin k) a).symm

theorem smul_div {k : ℝ} (hk : 0 < k) (a b : Ext) : fin k * a / (fin k * b) = a / b := by
  have hn (y : ℝ) : k * y < 0 ↔ y < 0 := by rw [← not_le, ← not_le, mul_nonneg_iff_of_pos_left hk]
  cases a <;> cases b <;> (try simp only [fin_mul_pinf hk, fin_mul_ninf hk, mul_nan]) <;> first
    | exact div_scale hk _ _
    | rfl
    | exact if_congr (hn _) rfl rfl

theorem smul_lt {k : ℝ} (hk : 0 < k) (a b : Ext) : Scal.lt (fin k * a) (fin k * b) = Scal.lt a b := by
  cases a <;> cases b <;> (try simp only [fin_mul_pinf hk, fin_mul_ninf hk, mul_nan]) <;> first
    | rfl
    | exact decide_eq_decide.2 (mul_lt_mul_iff_right₀ hk)

theorem smul_max_zero {k : ℝ} (hk : 0 < k) (a : Ext) : Scal.maximum (fin k * a) (Scal.lit 0) = fin k * Scal.maximum a (Scal.lit 0) := by
  cases a with
  | fin x =>
    show fin (max (k * x) (((0 : ℚ)) : ℝ)) = fin (k * max x ((0 : ℚ) : ℝ))
    rw [mul_max_of_nonneg _ _ hk.le]; simp
  | pinf => rw [fin_mul_pinf hk]; exact (fin_mul_pinf hk).symm
  | ninf => rw [fin_mul_ninf hk]; show fin ((0 : ℚ) : ℝ) = fin (k * ((0 : ℚ) : ℝ)); simp
  | nan => rfl

theorem smul_zero (k : ℝ) : fin k * 0 = (0 : Ext) := congrArg fin (mul_zero k)

theorem smul_sum {k : ℝ} (hk : 0 < k) (l : List Ext) : Scal.sum (l.map (fin k * ·)) = fin k * Scal.sum l := by
  induction l with
  | nil => exact (smul_zero k).symm
  | cons a l ih =>
    show fin k * a + Scal.sum (l.map (fin k * ·)) = fin k * (a + Scal.sum l)
    rw [ih, smul_add hk]

end Ext
open Ext

/-- A matrix over extended reals with every entry multiplied by `w`. -/
noncomputable def weightCooE (w : ℝ) (A : Coo Ext) : Coo Ext := { A with values := A.values.map (fin w * ·) }

theorem scatterAdd_mapE {w : ℝ} (hw : 0 < w) (upd : List (Nat × Ext)) : ∀ l : List Ext,
    scatterAdd (l.map (fin w * ·)) (upd.map fun p => (p.1, fin w * p.2)) = (scatterAdd l upd).map (fin w * ·) := by
  induction upd with
  | nil => intro l; rfl
  | cons p upd ih =>
    intro l
    have : (l.map (fin w * ·)).modify p.1 (· + fin w * p.2) = (l.modify p.1 (· + p.2)).map (fin w * ·) := by
      apply List.ext_getElem
      · simp
      · intro i h1 h2
        simp only [List.getElem_modify, List.getElem_map]
        split
        · exact (smul_add hw _ _).symm
        · rfl
    show scatterAdd ((l.map (fin w * ·)).modify p.1 (· + fin w * p.2)) _ = _
    rw [this, ih]
    rfl

theorem gather_smulE (k : ℝ) (x : List Ext) (idx : List Nat) : gather (x.map (fin k * ·)) idx = (gather x idx).map (fin k * ·) := by
  unfold gather
  rw [List.map_map]
  apply List.map_congr_left
  intro i _
  simp only [List.length_map, Function.comp, List.getD_eq_getElem?_getD, List.getElem?_map]
  cases x[min i (x.length - 1)]? with
  | none => exact (smul_zero k).symm
  | some y => rfl

theorem zip_map_sndE {α : Type} (w : ℝ) (r : List α) (u : List Ext) :
    r.zip (u.map (fin w * ·)) = (r.zip u).map fun p => (p.1, fin w * p.2) := by
  rw [List.zip_map_right]
  rfl

theorem replicate_map_zeroE (w : ℝ) (n : Nat) : (List.replicate n (0 : Ext)).map (fin w * ·) = List.replicate n 0 := by
  rw [List.map_replicate, smul_zero]

theorem matmulE_of {k : ℝ} (hk : 0 < k) {A A' : Coo Ext} {x x' : List Ext} (hs : A'.shape = A.shape) (hr : A'.rows = A.rows) (hc : A'.cols = A.cols)
    (hv : A'.values.length = A.values.length) (hx : x'.length = x.length)
    (h : List.zipWith (· * ·) A'.values (gather x' A.cols) = (List.zipWith (· * ·) A.values (gather x A.cols)).map (fin k * ·)) :
    A'.matmul x' = (A.matmul x).map (List.map (fin k * ·)) := by
  unfold Coo.matmul
  rw [hs, hr, hc, hv, hx, h]
  by_cases h1 : x.length = A.shape.2
  · by_cases h2 : A.values.length ≠ A.cols.length
    · simp [h1, h2, pyAssert]; rfl
    · by_cases h3 : A.rows.length ≠ A.cols.length
      · simp [h1, h2, h3, pyAssert]; rfl
      · rw [if_neg h2, if_neg h3, if_neg h2, if_neg h3, zip_map_sndE]
        have := scatterAdd_mapE hk (A.rows.zip (List.zipWith (· * ·) A.values (gather x A.cols))) (List.replicate A.shape.1 0)
        rw [replicate_map_zeroE] at this
        simp only [h1, pyAssert]
        rw [this]
        rfl
  · simp [h1, pyAssert]; rfl

theorem weight_matmulE {w : ℝ} (hw : 0 < w) (A : Coo Ext) (x : List Ext) :
    (weightCooE w A).matmul x = (A.matmul x).map (List.map (fin w * ·)) := by
  refine matmulE_of hw rfl rfl rfl (List.length_map _) rfl ?_
  show List.zipWith (· * ·) (A.values.map (fin w * ·)) _ = _
  rw [List.map_zipWith, List.zipWith_map_left]
  congr 1
  funext a b
  exact smul_mul hw a b

theorem matmul_smulE {k : ℝ} (hk : 0 < k) (A : Coo Ext) (x : List Ext) :
    A.matmul (x.map (fin k * ·)) = (A.matmul x).map (List.map (fin k * ·)) := by
  refine matmulE_of hk rfl rfl rfl rfl (List.length_map _) ?_
  rw [gather_smulE, List.map_zipWith, List.zipWith_map_right]
  congr 1
  funext a b
  exact mul_smul hk a b

theorem map_map_mulE {a b : ℝ} (ha : 0 < a) (x : List Ext) : (x.map (fin b * ·)).map (fin a * ·) = x.map (fin (a * b) * ·) := by
  rw [List.map_map]
  apply List.map_congr_left
  intro y _
  exact smul_smul ha y

theorem vdot_smul_left {k : ℝ} (hk : 0 < k) (x y : List Ext) : vdotS (x.map (fin k * ·)) y = fin k * vdotS x y := by
  unfold vdotS
  rw [← smul_sum hk, List.map_zipWith, List.zipWith_map_left]
  congr 2
  funext a b
  exact smul_mul hk a b

theorem vdot_smul_right {k : ℝ} (hk : 0 < k) (x y : List Ext) : vdotS x (y.map (fin k * ·)) = fin k * vdotS x y := by
  unfold vdotS
  rw [← smul_sum hk, List.map_zipWith, List.zipWith_map_right]
  congr 2
  funext a b
  exact mul_smul hk a b

theorem weight_diagonalsE {w : ℝ} (hw : 0 < w) (A : Coo Ext) (n : Nat) :
    ataDiagonalsS (weightCooE w A) n = (ataDiagonalsS A n).map (fin (w ^ 2) * ·) := by
  unfold ataDiagonalsS weightCooE
  have e : (A.values.map (fin w * ·)).map (fun v => v * v) = (A.values.map fun v => v * v).map (fin (w ^ 2) * ·) := by
    rw [List.map_map, List.map_map]
    apply List.map_congr_left
    intro y _
    simp only [Function.comp]
    rw [smul_mul hw, mul_smul hw, smul_smul hw, ← pow_two]
  simp only [e]
  rw [zip_map_sndE]
  have := scatterAdd_mapE (w := w ^ 2) (by positivity) (A.cols.zip (A.values.map fun v => v * v)) (List.replicate n 0)
  rw [replicate_map_zeroE] at this
  exact this

theorem weight_ataFunctionE {w : ℝ} (hw : 0 < w) (A : Coo Ext) (d : List Ext) (l : Ext) (x : List Ext) :
    ataFunctionS (weightCooE w A) (d.map (fin (w ^ 2) * ·)) l x = (ataFunctionS A d l x).map (List.map (fin (w ^ 2) * ·)) := by
  unfold ataFunctionS
  have hT : (weightCooE w A).T = weightCooE w A.T := rfl
  have hw2 : 0 < w ^ 2 := by positivity
  rw [hT, weight_matmulE hw]
  cases A.matmul x with
  | error e => rfl
  | ok y =>
    simp only [Except.map, py_bind_ok]
    rw [weight_matmulE hw, matmul_smulE hw]
    cases A.T.matmul y with
    | error e => rfl
    | ok z =>
      simp only [Except.map, py_bind_ok]
      show Except.ok _ = Except.ok _
      congr 1
      apply List.ext_getElem
      · simp
      · intro i h1 h2
        simp only [List.getElem_zipWith, List.getElem_map]
        rw [smul_add hw2, smul_smul hw, ← pow_two, mul_smul hw2, smul_mul hw2]

theorem weight_preconditionerE {k : ℝ} (hk : 0 < k) (d x : List Ext) :
    jacobiPreconditionerS (d.map (fin k * ·)) (x.map (fin k * ·)) = jacobiPreconditionerS d x := by
  unfold jacobiPreconditionerS
  rw [List.zipWith_map]
  congr 1
  funext a b
  exact smul_div hk a b

/-- The same iteration with a residual that is `κ` times as large. -/
noncomputable def cgWeightE (κ : ℝ) (s : CgStateS Ext) : CgStateS Ext := ⟨s.x, s.r.map (fin κ * ·), fin κ * s.gamma, s.p⟩

section
variable {κ : ℝ} {op op' : List Ext → Py (List Ext)} {M M' : List Ext → List Ext}

theorem weight_cgBodyE (hκ : 0 < κ) (ho : ∀ x, op' x = (op x).map (List.map (fin κ * ·))) (hM : ∀ x, M' (x.map (fin κ * ·)) = M x)
    (s : CgStateS Ext) : cgBodyS op' M' (cgWeightE κ s) = (cgBodyS op M s).map (cgWeightE κ) := by
  unfold cgBodyS
  simp only [cgWeightE, ho]
  cases op s.p with
  | error e => rfl
  | ok Ap =>
    simp only [Except.map, py_bind_ok]
    rw [vdot_smul_right hκ, smul_div hκ]
    have h3 : List.zipWith (· - ·) (s.r.map (fin κ * ·)) ((Ap.map (fin κ * ·)).map (s.gamma / vdotS s.p Ap * ·)) =
        (List.zipWith (· - ·) s.r (Ap.map (s.gamma / vdotS s.p Ap * ·))).map (fin κ * ·) := by
      apply List.ext_getElem
      · simp
      · intro i h1 h2
        simp only [List.getElem_zipWith, List.getElem_map]
        rw [smul_sub hκ, mul_smul hκ]
    rw [h3, hM, vdot_smul_left hκ, smul_div hκ]
    rfl

theorem weight_cgLoopE (hκ : 0 < κ) (ho : ∀ x, op' x = (op x).map (List.map (fin κ * ·))) (hM : ∀ x, M' (x.map (fin κ * ·)) = M x)
    (t : Ext) : ∀ (k : Nat) (s : CgStateS Ext),
    cgLoopS op' M' (fin (κ * κ) * t) k (cgWeightE κ s) = (cgLoopS op M t k s).map (cgWeightE κ) := by
  intro k
  induction k with
  | zero => intro s; rfl
  | succ k ih =>
    intro s
    have hc : Scal.lt (fin (κ * κ) * t) (vdotS (cgWeightE κ s).r (cgWeightE κ s).r) = Scal.lt t (vdotS s.r s.r) := by
      show Scal.lt _ (vdotS (s.r.map (fin κ * ·)) (s.r.map (fin κ * ·))) = _
      rw [vdot_smul_left hκ, vdot_smul_right hκ, smul_smul hκ, smul_lt (by positivity)]
    unfold cgLoopS
    rw [hc]
    split
    · rw [weight_cgBodyE hκ ho hM]
      cases cgBodyS op M s with
      | error e => rfl
      | ok s' => exact ih s'
    · rfl

theorem weight_cgE (hκ : 0 < κ) (ho : ∀ x, op' x = (op x).map (List.map (fin κ * ·))) (hM : ∀ x, M' (x.map (fin κ * ·)) = M x)
    (b x0 : List Ext) (n : Nat) (tol : Ext) : cgS op' (b.map (fin κ * ·)) x0 n tol M' = cgS op b x0 n tol M := by
  unfold cgS
  rw [ho]
  cases op x0 with
  | error e => rfl
  | ok y =>
    simp only [Except.map, py_bind_ok]
    have h1 : List.zipWith (· - ·) (b.map (fin κ * ·)) (y.map (fin κ * ·)) = (List.zipWith (· - ·) b y).map (fin κ * ·) := by
      rw [List.zipWith_map, List.map_zipWith]
      congr 1
      funext u v
      exact (smul_sub hκ u v).symm
    have hκ2 : 0 < κ * κ := by positivity
    rw [h1, vdot_smul_left hκ, vdot_smul_right hκ, smul_smul hκ, mul_smul hκ2, smul_max_zero hκ2, hM, vdot_smul_left hκ]
    have := weight_cgLoopE hκ ho hM (Scal.maximum (tol * tol * vdotS b b) (Scal.lit 0)) n
      ⟨x0, List.zipWith (· - ·) b y, vdotS (List.zipWith (· - ·) b y) (M (List.zipWith (· - ·) b y)), M (List.zipWith (· - ·) b y)⟩
    unfold cgWeightE at this
    rw [this]
    cases cgLoopS op M _ n _ <;> rfl

end

theorem weight_cgSolveE {w : ℝ} (hw : 0 < w) (A : Coo Ext) (b : List Ext) (l tol : Ext) :
    cgSolveS (weightCooE w A) (b.map (fin (w ^ 2) * ·)) l tol = cgSolveS A b l tol := by
  unfold cgSolveS
  simp only [List.length_map]
  rw [weight_diagonalsE hw]
  have hw2 : 0 < w ^ 2 := by positivity
  exact weight_cgE hw2 (weight_ataFunctionE hw A _ l) (weight_preconditionerE hw2 _) b _ _ _

end Jaxfg
