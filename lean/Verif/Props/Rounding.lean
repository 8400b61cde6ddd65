/-
C98, C99: floating point. The products, costs and decisions of the solvers, computed with rounding errors, overflow and underflow.
-/
import Verif.Lemmas.Rounding
import Verif.Lemmas.FloatExample
import Verif.Lemmas.Solver

namespace Jaxfg.Props
open Spec
open Ext (fin)

variable {P : Precision} {S : Type} [Scal S] {val : S → Ext}

/-! ### C98: rounding errors of products and costs -/

/-- **C98, product.** An entry of `A @ x` in floating point. If it is finite, then so are all entries of that row and the numbers they
are multiplied with, and it differs from the exact product by at most `((1+u)^(k+1) - 1) |A||x|` and what underflows, where `k` is the
number of entries listed for the row. It is finite if its size and error are below the overflow threshold. The order in which the
entries are listed does not matter. -/
theorem C98_product (hS : IsFloat P S val) {A : Coo S} (hA : CooWF A) {x : List S} (hx : x.length = A.shape.2) :
    ∃ y, A.matmul x = .ok y ∧ y.length = A.shape.1 ∧ ∀ i : Fin A.shape.1,
      let k := rowCount A i
      let exact := (cooMatrix (A.map (num val)) A.shape.1 A.shape.2).mulVec (vec (x.map (num val)) A.shape.2) i
      let size := (cooMatrix (A.map fun a => |num val a|) A.shape.1 A.shape.2).mulVec (vec (x.map fun a => |num val a|) A.shape.2) i
      let rowFinite := ∀ e ∈ entries A, e.1 = i.val → IsFinite val e.2.2 ∧ IsFinite val (x.getD e.2.1 0)
      (IsFinite val (vec y A.shape.1 i) → rowFinite ∧
        |num val (vec y A.shape.1 i) - exact| ≤ ((1 + P.u) ^ (k + 1) - 1) * size + 2 * k * (1 + P.u) ^ k * P.η) ∧
      (rowFinite → (1 + P.u) ^ (k + 1) * size + 2 * k * (1 + P.u) ^ k * P.η ≤ P.M → IsFinite val (vec y A.shape.1 i)) := by
  obtain ⟨y, h1, h2, h3⟩ := matmul_rowFold hA hx
  refine ⟨y, h1, h2, fun i => ?_⟩
  dsimp only
  rw [mulVec_rowPairs hA hx, mulVec_rowPairs hA hx, h3, ← length_rowPairs (x := x)]
  have hrow : (∀ e ∈ entries A, e.1 = i.val → IsFinite val e.2.2 ∧ IsFinite val (x.getD e.2.1 0)) ↔
      ∀ p ∈ rowPairs A x i, IsFinite val p.1 ∧ IsFinite val p.2 := by
    simp only [rowPairs, List.mem_map, List.mem_filter, decide_eq_true_eq, forall_exists_index, and_imp]
    constructor
    · rintro h _ e he hi rfl; exact h e he hi
    · intro h e he hi; exact h _ e he hi rfl
  rw [hrow]
  exact rowFold_err hS _

/-- **C98, cost.** `jnp.sum(r ** 2)` in floating point, added up in any order: if it is finite then so are all residuals, and it has
relative error at most `(1+u)^(n+pad) - 1`, except for what underflows; it is finite if it is below the overflow threshold. -/
theorem C98_cost (hS : IsFloat P S val) (r : List S) :
    let w := (1 + P.u) ^ (r.length + P.pad)
    let exact := sqNorm (r.map (num val))
    let lost := (2 * r.length + P.pad) * w * P.η
    (IsFinite val (sumSq r) → (∀ a ∈ r, IsFinite val a) ∧ |num val (sumSq r) - exact| ≤ (w - 1) * exact + lost) ∧
    ((∀ a ∈ r, IsFinite val a) → w * exact + lost ≤ P.M → IsFinite val (sumSq r)) := sumSq_err hS r

/-- **C98, comparing costs.** If one computed cost is at most another, then the exact costs satisfy the same up to a factor
`w / (2 - w)`, where `w` is `(1+u)^(n+pad)`. -/
theorem C98_comparison (hS : IsFloat P S val) (r r' : List S) (hn : r'.length = r.length) (hf : IsFinite val (sumSq r))
    (hle : Ext.le (val (sumSq r')) (val (sumSq r)) = true) (hnn : val (sumSq r') ≠ .ninf) :
    let w := (1 + P.u) ^ (r.length + P.pad)
    (2 - w) * sqNorm (r'.map (num val)) ≤ w * sqNorm (r.map (num val)) + 2 * ((2 * r.length + P.pad) * w * P.η) := by
  obtain ⟨c, hc⟩ := hf
  obtain ⟨c', hc'⟩ : ∃ c', val (sumSq r') = fin c' := by
    rw [hc] at hle
    cases h : val (sumSq r') with
    | fin x => exact ⟨x, rfl⟩
    | ninf => exact absurd h hnn
    | pinf => rw [h] at hle; simp [Ext.le] at hle
    | nan => rw [h] at hle; simp [Ext.le] at hle
  have e := ((sumSq_err hS r).1 ⟨c, hc⟩).2
  have e' := ((sumSq_err hS r').1 ⟨c', hc'⟩).2
  rw [hc, hc'] at hle
  have hle : c' ≤ c := by simpa [Ext.le] using hle
  rw [hn] at e'
  simp only [num, hc, hc', Ext.toReal] at e e'
  dsimp only
  have a1 := (abs_le.1 e).2
  have a2 := (abs_le.1 e').1
  linarith

/-- Double precision: the relative error of a cost of `n` residuals is at most `(1 + 2^-53)^(n+1) - 1`. -/
theorem C98_example (r : List FloatEx.Dbl) (h : IsFinite FloatEx.Dbl.v (sumSq r)) :
    |num FloatEx.Dbl.v (sumSq r) - sqNorm (r.map (num FloatEx.Dbl.v))| ≤
      ((1 + 1 / 2 ^ 53) ^ (r.length + 1) - 1) * sqNorm (r.map (num FloatEx.Dbl.v)) := by
  simpa [FloatEx.P] using ((C98_cost FloatEx.isFloat r).1 h).2

/-! ### C99: decisions about steps -/

section
variable {C : Ty → VarClass S} {g : GraphOps S}

theorem quality_positive (hS : IsFloat P S val) {A : Coo S} {pc : S} {prev : State S} {delta : List S} {qm quality : S} {q c : ℝ}
    (hq : val qm = fin q) (h0 : 0 < q) (hc : val prev.cost = fin c) (h : stepQuality A pc prev delta = .ok quality)
    (ha : Scal.le qm quality = true) :
    Ext.lt (val pc) (fin c) = true ∨ ∃ As m, A.matmul delta = .ok As ∧ vecAdd As prev.residual = .ok m ∧
      Ext.lt (val (sumSq m - prev.cost)) (fin 0) = false := by
  unfold stepQuality at h
  simp only [py_bind_eq_ok, py_return_eq_ok] at h
  obtain ⟨As, h1, m, h2, h3⟩ := h
  by_cases hd : Ext.lt (val (sumSq m - prev.cost)) (fin 0) = true
  swap
  · exact .inr ⟨As, m, h1, h2, by simpa using hd⟩
  left
  rw [hS.le, hq] at ha
  have hdne : val (sumSq m - prev.cost) ≠ fin 0 := by
    intro h; rw [h] at hd; simp [Ext.lt] at hd
  have hdiv := hS.div (pc - prev.cost) (sumSq m - prev.cost) hdne
  rw [h3] at hdiv
  have hsub := hS.sub pc prev.cost
  rw [hc] at hsub
  have hM := P.M_nonneg
  cases hn : val (sumSq m - prev.cost) with
  | pinf => rw [hn] at hd; simp [Ext.lt] at hd
  | nan => rw [hn] at hd; simp [Ext.lt] at hd
  | ninf =>
    rw [hn] at hdiv
    cases hp : val (pc - prev.cost) with
    | fin x =>
      rw [hp] at hdiv
      rcases (show Rounds P 0 (val quality) from hdiv) with ⟨z, h, _, _, hz⟩ | ⟨h, _⟩ | ⟨h, _⟩
      · rw [h] at ha
        have : q ≤ z := by simpa [Ext.le] using ha
        linarith [hz le_rfl]
      · linarith
      · linarith
    | _ => rw [hp] at hdiv; simp only [Ext.div, RoundsTo] at hdiv; rw [hdiv] at ha; simp [Ext.le] at ha
  | fin y =>
    have hy : y < 0 := by rw [hn] at hd; simpa [Ext.lt] using hd
    rw [hn] at hdiv
    have key : Ext.lt (val (pc - prev.cost)) (fin 0) = true := by
      cases hp : val (pc - prev.cost) with
      | fin x =>
        rw [hp] at hdiv
        have hdiv : Rounds P (x / y) (val quality) := by
          have : Ext.div (fin x) (fin y) = fin (x / y) := by simp [Ext.div, hy.ne]
          rw [this] at hdiv; exact hdiv
        have hpos : 0 < x / y := by
          by_contra hneg
          have hneg := not_lt.1 hneg
          rcases hdiv with ⟨z, h, _, _, hz⟩ | ⟨h, _⟩ | ⟨_, h⟩
          · rw [h] at ha
            have : q ≤ z := by simpa [Ext.le] using ha
            linarith [hz hneg]
          · linarith
          · rw [h] at ha; simp [Ext.le] at ha
        have : x < 0 := by
          by_contra hx
          have := div_nonpos_of_nonneg_of_nonpos (not_lt.1 hx) hy.le
          linarith
        simpa [Ext.lt] using this
      | pinf =>
        rw [hp] at hdiv
        simp only [Ext.div, hy, if_true, RoundsTo] at hdiv
        rw [hdiv] at ha; simp [Ext.le] at ha
      | ninf => simp [Ext.lt]
      | nan =>
        rw [hp] at hdiv
        simp only [Ext.div, RoundsTo] at hdiv
        rw [hdiv] at ha; simp [Ext.le] at ha
    cases hv : val pc with
    | fin x =>
      rw [hv] at hsub
      rcases (show Rounds P (x + -c) (val (pc - prev.cost)) from hsub) with ⟨z, h, _, hz, _⟩ | ⟨_, h⟩ | ⟨h, _⟩
      · rw [h] at key
        have : z < 0 := by simpa [Ext.lt] using key
        have : x < c := by
          by_contra hx
          linarith [hz (by linarith)]
        simpa [Ext.lt] using this
      · rw [h] at key; simp [Ext.lt] at key
      · have : x < c := by linarith
        simpa [Ext.lt] using this
    | pinf =>
      rw [hv] at hsub; simp only [Ext.add, Ext.neg, RoundsTo] at hsub
      rw [hsub] at key; simp [Ext.lt] at key
    | ninf => simp [Ext.lt]
    | nan =>
      rw [hv] at hsub; simp only [Ext.add, RoundsTo] at hsub
      rw [hsub] at key; simp [Ext.lt] at key

/-- **C99, Levenberg-Marquardt.** In floating point, a step either leaves cost and assignments alone, or makes the computed cost
strictly smaller, or the predicted change of the cost, as computed, is not negative (zero, positive or NaN). -/
theorem C99_levenberg_marquardt (hS : IsFloat P S val) (s : LevenbergMarquardt S) {q c : ℝ} (hq : val s.stepQualityMin = fin q)
    (h0 : 0 < q) {p p' : LMState S} {log : List (Msg S)} (hc : val p.cost = fin c) (h : s.step C g p = .ok (p', log)) :
    (p'.cost = p.cost ∧ p'.assignments = p.assignments) ∨ Ext.lt (val p'.cost) (fin c) = true ∨
      ∃ A ATb delta As m, g.jacobian p.assignments p.residual = .ok A ∧ A.T.matmul (p.residual.map (- ·)) = .ok ATb ∧
        s.linear A ATb p.lambd p.iterations = .ok delta ∧ A.matmul delta = .ok As ∧ vecAdd As p.residual = .ok m ∧
        Ext.lt (val (sumSq m - p.cost)) (fin 0) = false := by
  obtain ⟨A, ATb, delta, b, pc, r, quality, conv, h1, h2, h3, hb, hcost, hqual, -, rfl, -⟩ := lmStep_ok.1 h
  by_cases ha : Scal.le s.stepQualityMin quality = true
  · right
    rcases quality_positive hS hq h0 hc hqual ha with h | ⟨As, m, h4, h5, h6⟩
    · left; simpa [lmNext, ha] using h
    · exact .inr ⟨A, ATb, delta, As, m, h1, h2, h3, h4, h5, h6⟩
  · left; simp [lmNext, ha]

/-- **C99, dogleg.** The same. -/
theorem C99_dogleg (hS : IsFloat P S val) (s : Dogleg S) {q c : ℝ} (hq : val s.stepQualityMin = fin q)
    (h0 : 0 < q) {p p' : DoglegState S} {log : List (Msg S)} (hc : val p.cost = fin c) (h : s.step C g p = .ok (p', log)) :
    (p'.cost = p.cost ∧ p'.assignments = p.assignments) ∨ Ext.lt (val p'.cost) (fin c) = true ∨
      ∃ A ATb gn delta As m, g.jacobian p.assignments p.residual = .ok A ∧ A.T.matmul (p.residual.map (- ·)) = .ok ATb ∧
        s.linear A ATb (Scal.lit 0) p.iterations = .ok gn ∧ doglegStep A ATb gn p.radius = .ok delta ∧
        A.matmul delta = .ok As ∧ vecAdd As p.residual = .ok m ∧ Ext.lt (val (sumSq m - p.cost)) (fin 0) = false := by
  obtain ⟨A, ATb, gn, delta, b, pc, r, quality, conv, h1, h2, h3, h3', hb, hcost, hqual, -, rfl, -⟩ := doglegSolverStep_ok.1 h
  by_cases ha : Scal.le s.stepQualityMin quality = true
  · right
    rcases quality_positive hS hq h0 hc hqual ha with h | ⟨As, m, h4, h5, h6⟩
    · left; simpa [doglegNext, ha] using h
    · exact .inr ⟨A, ATb, gn, delta, As, m, h1, h2, h3, h3', h4, h5, h6⟩
  · left; simp [doglegNext, ha]

end

/-! A problem with one unknown in double precision: residual `1 + 2^-28 x + 2^55 x²`, solved from `x = 0`. -/
namespace Absorbed
open FloatEx

/-- The residual. -/
noncomputable def res (x : Dbl) : Dbl := d 1 + d (1 / 2 ^ 28) * x + d (2 ^ 55) * (x * x)

/-- Its derivative. -/
noncomputable def jac (x : Dbl) : Dbl := d (1 / 2 ^ 28) + d (2 ^ 56) * x

noncomputable def CD : Ty → VarClass Dbl := fun _ => .realVector 1
noncomputable def lay : Layout := Layout.make CD [⟨0, 0⟩] false
noncomputable def llay : Layout := Layout.make CD [⟨0, 0⟩] true

/-- The graph with this one factor, evaluated in double precision. -/
noncomputable def g : GraphOps Dbl where
  layout := lay
  localLayout := llay
  computeCost a := .ok (sumSq [res (a.storage.getD 0 0)], [res (a.storage.getD 0 0)])
  jacobian a _ := .ok ⟨[jac (a.storage.getD 0 0)], [0], [0], (1, 1)⟩

/-- The damped normal equation, solved in double precision. -/
noncomputable def linear : LinSolver Dbl := fun A b l _ =>
  .ok [b.getD 0 0 / (A.values.getD 0 0 * A.values.getD 0 0 + l)]

/-- The assignments `x = v`. -/
noncomputable def at_ (v : Dbl) : Assign Dbl := ⟨[v], lay⟩

theorem retract_eq (v e : Dbl) : (at_ v).manifoldRetract CD ⟨[e], llay⟩ = .ok (at_ (v + e)) := rfl

theorem matmul_eq (j y : Dbl) : Coo.matmul ⟨[j], [0], [0], (1, 1)⟩ [y] = .ok [0 + j * y] := rfl

theorem matmul_T_eq (j y : Dbl) : (Coo.T ⟨[j], [0], [0], (1, 1)⟩).matmul [y] = .ok [0 + j * y] := rfl

theorem small {x : ℝ} (h1 : -4 ≤ x) (h2 : x ≤ 4) : |x| ≤ 2 ^ 100 :=
  (abs_le.2 ⟨h1, h2⟩).trans (by norm_num)

theorem f0 : fl 0 = 0 := fl_zero
theorem f1 : fl 1 = 1 := fl_dyadic 1 0 (by norm_num) (by norm_num)

theorem res_zero : res (d 0) = d 1 := by
  unfold res
  rw [mul_d (z := 0) (by simpa using fl_zero) (by norm_num), add_d (z := 1) (by simpa using f1) (by norm_num),
    mul_d (z := 0) (by simpa using fl_zero) (by norm_num), mul_d (z := 0) (by simpa using fl_zero) (by norm_num),
    add_d (z := 1) (by simpa using f1) (by norm_num)]

theorem jac_zero : jac (d 0) = d (1 / 2 ^ 28) := by
  unfold jac
  rw [mul_d (z := 0) (by simpa using fl_zero) (by norm_num)]
  exact add_d (by rw [add_zero]; exact fl_dyadic 1 (-28) (by norm_num) (by norm_num)) (small (by norm_num) (by norm_num))

theorem cost_d {x y : ℝ} (h : fl (x * x) = y) (h' : fl y = y) (hy : |y| ≤ 2 ^ 100) : sumSq [d x] = d y := by
  change d x * d x + d 0 = d y
  rw [mul_d h hy]
  exact add_d (by rw [add_zero]; exact h') hy

theorem step_d : d (-1 / 2 ^ 28) / (d (1 / 2 ^ 28) * d (1 / 2 ^ 28) + d 1) = d (-1 / 2 ^ 28) := by
  rw [mul_d (z := 1 / 2 ^ 56) (by rw [show (1 : ℝ) / 2 ^ 28 * (1 / 2 ^ 28) = 1 / 2 ^ 56 by norm_num]
                                  exact fl_dyadic 1 (-56) (by norm_num) (by norm_num)) (small (by norm_num) (by norm_num)),
    add_d (z := 1) (by rw [add_comm]; exact fl_one_add (by norm_num) (by norm_num)) (small (by norm_num) (by norm_num))]
  exact div_d one_ne_zero (by rw [div_one]; exact fl_dyadic (-1) (-28) (by norm_num) (by norm_num)) (small (by norm_num) (by norm_num))

theorem slope_d {x : ℝ} (hx : x = 1 ∨ x = -1) : 0 + d (1 / 2 ^ 28) * d (x) = d (x / 2 ^ 28) := by
  have e : fl (x / 2 ^ 28) = x / 2 ^ 28 := by
    rcases hx with rfl | rfl
    · exact fl_dyadic 1 (-28) (by norm_num) (by norm_num)
    · exact fl_dyadic (-1) (-28) (by norm_num) (by norm_num)
  have b : |x / 2 ^ 28| ≤ 2 ^ 100 := by rcases hx with rfl | rfl <;> exact small (by norm_num) (by norm_num)
  rw [mul_d (z := x / 2 ^ 28) (by rw [show 1 / 2 ^ 28 * x = x / 2 ^ 28 by ring]; exact e) b, zero_d]
  exact add_d (by rw [zero_add]; exact e) b

theorem product_d : d (1 / 2 ^ 28) * d (-1 / 2 ^ 28) = d (-1 / 2 ^ 56) :=
  mul_d (by rw [show (1 : ℝ) / 2 ^ 28 * (-1 / 2 ^ 28) = -1 / 2 ^ 56 by norm_num]; exact fl_dyadic (-1) (-56) (by norm_num) (by norm_num))
    (small (by norm_num) (by norm_num))

theorem res_step : res (d (-1 / 2 ^ 28)) = d (3 / 2) := by
  unfold res
  rw [product_d, add_d (z := 1) (by rw [show (1 : ℝ) + -1 / 2 ^ 56 = 1 - 1 / 2 ^ 56 by norm_num]
                                    exact fl_one_sub (by norm_num) (by norm_num)) (small (by norm_num) (by norm_num)),
    mul_d (x := -1 / 2 ^ 28) (z := 1 / 2 ^ 56) (by rw [show (-1 : ℝ) / 2 ^ 28 * (-1 / 2 ^ 28) = 1 / 2 ^ 56 by norm_num]
                                                   exact fl_dyadic 1 (-56) (by norm_num) (by norm_num)) (small (by norm_num) (by norm_num)),
    mul_d (z := 1 / 2) (by rw [show (2 : ℝ) ^ 55 * (1 / 2 ^ 56) = 1 / 2 by norm_num]
                           exact fl_dyadic 1 (-1) (by norm_num) (by norm_num)) (small (by norm_num) (by norm_num))]
  exact add_d (by rw [show (1 : ℝ) + 1 / 2 = 3 / 2 by norm_num]; exact fl_dyadic 3 (-1) (by norm_num) (by norm_num))
    (small (by norm_num) (by norm_num))

theorem cost_one : sumSq [d 1] = d 1 := cost_d (by simpa using f1) f1 (by norm_num)

theorem cost_step : sumSq [d (3 / 2)] = d (9 / 4) := by
  have e : fl (9 / 4) = 9 / 4 := fl_dyadic 9 (-2) (by norm_num) (by norm_num)
  exact cost_d (by rw [show (3 : ℝ) / 2 * (3 / 2) = 9 / 4 by norm_num]; exact e) e (small (by norm_num) (by norm_num))

theorem quality_d (st : State Dbl) (h1 : st.cost = d 1) (h2 : st.residual = [d 1]) :
    stepQuality ⟨[d (1 / 2 ^ 28)], [0], [0], (1, 1)⟩ (d (9 / 4)) st [d (-1 / 2 ^ 28)] = .ok ⟨.pinf⟩ := by
  unfold stepQuality
  rw [matmul_eq, h1, h2]
  change Except.ok ((d (9 / 4) - d 1) / (sumSq [(0 + d (1 / 2 ^ 28) * d (-1 / 2 ^ 28)) + d 1] - d 1)) = _
  rw [product_d, zero_d, add_d (x := 0) (z := -1 / 2 ^ 56)
      (by rw [zero_add]; exact fl_dyadic (-1) (-56) (by norm_num) (by norm_num)) (small (by norm_num) (by norm_num)),
    add_d (z := 1) (by rw [show (-1 : ℝ) / 2 ^ 56 + 1 = 1 - 1 / 2 ^ 56 by norm_num]
                       exact fl_one_sub (by norm_num) (by norm_num)) (small (by norm_num) (by norm_num)),
    cost_one, sub_d (x := 1) (z := 0) (by simpa using fl_zero) (by norm_num),
    sub_d (z := 5 / 4) (by rw [show (9 : ℝ) / 4 + -1 = 5 / 4 by norm_num]
                           exact fl_dyadic 5 (-2) (by norm_num) (by norm_num)) (small (by norm_num) (by norm_num)),
    div_zero_d (by norm_num)]

end Absorbed

open Absorbed FloatEx in
/-- **C99, the exception occurs.** In double precision, Levenberg-Marquardt accepts a first step that raises the cost from 1 to 2.25,
whatever its tolerances are: the predicted decrease is lost by rounding, and the quality is a positive number divided by zero. -/
theorem C99_accepts_increase (s : LevenbergMarquardt Dbl) (hL : s.linear = linear) (hl : s.lambdaInitial = d 1) {q : ℝ}
    (hq : s.stepQualityMin.v = fin q) :
    ∃ st st' log, s.init g (at_ (d 0)) = .ok st ∧ s.step CD g st = .ok (st', log) ∧ st.cost = d 1 ∧ st'.cost = d (9 / 4) ∧
      st'.assignments = at_ (d (-1 / 2 ^ 28)) := by
  have hi : s.init g (at_ (d 0)) = .ok ⟨⟨0, at_ (d 0), d 1, [d 1], false⟩, d 1⟩ := by
    have : s.init g (at_ (d 0)) = .ok ⟨⟨0, at_ (d 0), sumSq [res (d 0)], [res (d 0)], false⟩, s.lambdaInitial⟩ := rfl
    rw [this, res_zero, cost_one, hl]
  have hmove : d 0 + d (-1 / 2 ^ 28) = d (-1 / 2 ^ 28) :=
    add_d (by rw [zero_add]; exact fl_dyadic (-1) (-28) (by norm_num) (by norm_num)) (small (by norm_num) (by norm_num))
  obtain ⟨conv, hconv⟩ : ∃ conv, s.converged CD ⟨0, at_ (d 0), d 1, [d 1], false⟩ (d (9 / 4)) ⟨[d (-1 / 2 ^ 28)], llay⟩
      [d (-1 / 2 ^ 28)] = .ok conv := by
    unfold Criteria.converged Criteria.convergedGradient
    rw [retract_eq]
    exact ⟨_, rfl⟩
  refine ⟨_, lmNext s ⟨⟨0, at_ (d 0), d 1, [d 1], false⟩, d 1⟩ (at_ (d (-1 / 2 ^ 28))) (d (9 / 4)) [d (3 / 2)] true conv, _, hi,
    lmStep_ok.2 ⟨⟨[d (1 / 2 ^ 28)], [0], [0], (1, 1)⟩, [d (-1 / 2 ^ 28)], [d (-1 / 2 ^ 28)], at_ (d (-1 / 2 ^ 28)), d (9 / 4),
      [d (3 / 2)], ⟨.pinf⟩, conv, ?_, ?_, ?_, ?_, ?_, quality_d _ rfl rfl, hconv, ?_, rfl⟩, rfl, rfl, rfl⟩
  · change Except.ok _ = _
    rw [show ((at_ (d 0)).storage.getD 0 0) = d 0 from rfl, jac_zero]
  · change (Coo.T ⟨[d (1 / 2 ^ 28)], [0], [0], (1, 1)⟩).matmul [-d 1] = _
    rw [matmul_T_eq, neg_d, slope_d (.inr rfl)]
  · rw [hL]
    change Except.ok [d (-1 / 2 ^ 28) / (d (1 / 2 ^ 28) * d (1 / 2 ^ 28) + d 1)] = _
    rw [step_d]
  · change (at_ (d 0)).manifoldRetract CD ⟨[d (-1 / 2 ^ 28)], llay⟩ = _
    rw [retract_eq, hmove]
  · change Except.ok (sumSq [res (d (-1 / 2 ^ 28))], [res (d (-1 / 2 ^ 28))]) = _
    rw [res_step, cost_step]
  · have : Scal.le s.stepQualityMin (⟨.pinf⟩ : Dbl) = true := by
      change Ext.le s.stepQualityMin.v .pinf = true
      rw [hq]; simp [Ext.le]
    rw [this]

end Jaxfg.Props
