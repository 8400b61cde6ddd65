/- The dogleg step on finite numbers. -/
import Verif.Lemmas.SolverReal
import Verif.Lemmas.Dogleg
import Verif.Lemmas.CgSolve
import Verif.Props.Sparse

namespace Jaxfg
open Matrix Spec
open Ext (fin)
open Props (cooWF_T cooMatrix_T)
variable {n : Nat}

theorem nrm_eq {l : List ℝ} (h : l.length = n) : nrm l = Real.sqrt (Spec.vec l n ⬝ᵥ Spec.vec l n) := by
  unfold nrm; rw [sqNorm_eq h]

theorem vec_add_list {a b : List ℝ} (ha : a.length = n) (hb : b.length = n) :
    Spec.vec (List.zipWith (· + ·) a b) n = Spec.vec a n + Spec.vec b n := by
  funext i; rw [vec_zipWith ha hb]; rfl

theorem vec_sub_list {a b : List ℝ} (ha : a.length = n) (hb : b.length = n) :
    Spec.vec (List.zipWith (· - ·) a b) n = Spec.vec a n - Spec.vec b n := by
  funext i; rw [vec_zipWith ha hb]; rfl

theorem vec_smul_list {a : List ℝ} (ha : a.length = n) (c : ℝ) : Spec.vec (a.map fun x => c * x) n = c • Spec.vec a n := by
  funext i; rw [vec_map ha]; rfl

theorem vec_neg_list {a : List ℝ} (ha : a.length = n) : Spec.vec (a.map fun x => -x) n = -Spec.vec a n := by
  funext i; rw [vec_map ha]; rfl

/-- `A.T @ -r` is the direction of steepest descent. -/
theorem descent_ok {A : Coo ℝ} (hA : CooWF A) {r b : List ℝ} (h : A.T.matmul (r.map fun x => -x) = .ok b) :
    r.length = A.shape.1 ∧ b.length = A.shape.2 ∧
      Spec.vec b A.shape.2 = descent (cooMatrix A A.shape.1 A.shape.2) (Spec.vec r A.shape.1) := by
  have hr : r.length = A.shape.1 := by
    by_contra hne
    unfold Coo.matmul Coo.T at h
    simp [hne] at h
  obtain ⟨y, h1, h2, h3⟩ := matmul_ok (cooWF_T hA) (x := r.map fun x => -x) (by simp [hr, Coo.T])
  have : b = y := by rw [h] at h1; exact Except.ok.inj h1
  subst this
  refine ⟨hr, h2, ?_⟩
  have e : A.T.shape = (A.shape.2, A.shape.1) := rfl
  rw [e] at h3
  simp only at h3
  rw [h3, cooMatrix_T, vec_neg_list hr]
  rfl

theorem matmul_vec {A : Coo ℝ} (hA : CooWF A) {x y : List ℝ} (h : A.matmul x = .ok y) :
    x.length = A.shape.2 ∧ y.length = A.shape.1 ∧
      Spec.vec y A.shape.1 = cooMatrix A A.shape.1 A.shape.2 *ᵥ Spec.vec x A.shape.2 := by
  have hx : x.length = A.shape.2 := by
    by_contra hne
    unfold Coo.matmul at h
    simp [hne] at h
  obtain ⟨z, h1, h2, h3⟩ := matmul_ok hA hx
  have : y = z := by rw [h] at h1; exact Except.ok.inj h1
  subst this
  exact ⟨hx, h2, h3⟩

/-- The linearized cost that `compute_step_quality` computes. -/
theorem predicted_ok {A : Coo ℝ} (hA : CooWF A) {r x As : List ℝ} (hr : r.length = A.shape.1) (h : A.matmul x = .ok As) :
    predicted As r = modelCost (cooMatrix A A.shape.1 A.shape.2) (Spec.vec r A.shape.1) (Spec.vec x A.shape.2) := by
  obtain ⟨-, h2, h3⟩ := matmul_vec hA h
  unfold predicted modelCost
  rw [sqNorm_eq (n := A.shape.1) (by simp [h2, hr]), vec_add_list h2 hr, h3]

/-- Blending parameter on finite vectors, inside the region where it is used. -/
theorem doglegBeta_fin {a b : List ℝ} (ha : a.length = n) (hb : b.length = n) {ρ : ℝ} (hρ : 0 < ρ) (h1 : nrm a < ρ) (h2 : ρ < nrm b) :
    let c := Spec.vec a n ⬝ᵥ (Spec.vec b n - Spec.vec a n)
    let D := (Spec.vec b n - Spec.vec a n) ⬝ᵥ (Spec.vec b n - Spec.vec a n)
    let K := ρ * ρ - Spec.vec a n ⬝ᵥ Spec.vec a n
    0 < K ∧ 0 < D ∧ K < D + 2 * c ∧
      doglegBeta (a.map fin) (b.map fin) (fin ρ) = fin ((-c + Real.sqrt (c * c + D * K)) / D) := by
  intro c D K
  have sa : nrm a * nrm a = Spec.vec a n ⬝ᵥ Spec.vec a n := by rw [nrm_sq, sqNorm_eq ha]
  have sb : nrm b * nrm b = Spec.vec b n ⬝ᵥ Spec.vec b n := by rw [nrm_sq, sqNorm_eq hb]
  have hK : 0 < K := by
    have := mul_self_lt_mul_self (nrm_nonneg a) h1
    simp only [K]; linarith
  have hexp : Spec.vec b n ⬝ᵥ Spec.vec b n = Spec.vec a n ⬝ᵥ Spec.vec a n + 2 * c + D := by
    simp only [c, D, sub_dotProduct, dotProduct_sub]
    rw [dotProduct_comm (Spec.vec b n) (Spec.vec a n)]
    ring
  have hout : K < D + 2 * c := by
    have := mul_self_lt_mul_self hρ.le h2
    simp only [K]; linarith
  have hD : 0 < D := by
    apply dot_self_pos
    intro h0
    have : b = a := ext_vec hb ha (sub_eq_zero.1 h0)
    subst this
    linarith
  refine ⟨hK, hD, hout, ?_⟩
  unfold doglegBeta
  simp only [fin_zipWith_sub, fin_zipWith_mul, fin_sum, fin_sumSq, fin_mul, fin_sub, fin_add, fin_neg]
  have ec : (List.zipWith (· * ·) a (List.zipWith (· - ·) b a)).sum = c := by
    have := vdot_eq (a := a) (b := List.zipWith (· - ·) b a) ha (by simp [ha, hb])
    unfold vdot at this
    rw [this, vec_sub_list hb ha]
  have eD : sqNorm (List.zipWith (· - ·) b a) = D := by
    rw [sqNorm_eq (n := n) (by simp [ha, hb]), vec_sub_list hb ha]
  rw [ec, eD, sqNorm_eq ha]
  have hnn : 0 ≤ c * c + D * K := add_nonneg (mul_self_nonneg c) (mul_pos hD hK).le
  obtain ⟨b1, b2, -, -, -⟩ := blending hK hD hout
  rw [fin_sqrt hnn, fin_lit_zero]
  simp only [fin_add]
  rw [fin_div hD.ne', fin_div b2.ne', b1]
  split <;> rfl

theorem norm_segment (a v : Fin n → ℝ) (t : ℝ) :
    (a + t • v) ⬝ᵥ (a + t • v) = a ⬝ᵥ a + 2 * t * (a ⬝ᵥ v) + t ^ 2 * (v ⬝ᵥ v) := by
  simp only [add_dotProduct, dotProduct_add, smul_dotProduct, dotProduct_smul, smul_eq_mul, dotProduct_comm v a]
  ring

/-- The dogleg step on finite numbers. -/
theorem doglegStep_fin {A : Coo ℝ} (hA : CooWF A) {r b gn : List ℝ} (hb : A.T.matmul (r.map fun x => -x) = .ok b)
    (hgn : gn.length = A.shape.2) {ρ : ℝ} (hρ : 0 < ρ) :
    let M := cooMatrix A A.shape.1 A.shape.2
    let g := descent M (Spec.vec r A.shape.1)
    let a := ((g ⬝ᵥ g) / ((M *ᵥ g) ⬝ᵥ (M *ᵥ g))) • g
    (nrm gn ≤ ρ → doglegStep (A.map fin) (b.map fin) (gn.map fin) (fin ρ) = .ok (gn.map fin)) ∧
    (ρ < nrm gn → g ≠ 0 → ∃ d : List ℝ, doglegStep (A.map fin) (b.map fin) (gn.map fin) (fin ρ) = .ok (d.map fin) ∧
      d.length = A.shape.2 ∧ nrm d = ρ ∧
      ((∃ t : ℝ, 0 < t ∧ t ≤ 1 ∧ Spec.vec d A.shape.2 = t • a) ∨
        (∃ t : ℝ, 0 ≤ t ∧ t ≤ 1 ∧ Spec.vec d A.shape.2 = a + t • (Spec.vec gn A.shape.2 - a)))) := by
  intro M g a
  obtain ⟨hr, hbl, hbv⟩ := descent_ok hA hb
  obtain ⟨Ab, h1, h2, h3⟩ := matmul_ok hA hbl
  have hlen : ¬ (gn.map fin).length ≠ (b.map fin).length := by simp [hgn, hbl]
  have hm : (A.map fin).matmul (b.map fin) = .ok (Ab.map fin) := by rw [fin_matmul, h1]; rfl
  constructor
  · intro hfit
    unfold doglegStep
    rw [hm]
    simp only [py_bind_ok, hlen, if_false, fin_vecNorm, py_pure]
    rw [if_pos ((fin_le _ _).2 hfit)]
  · intro hout hg
    have hbg : sqNorm b = g ⬝ᵥ g := by rw [sqNorm_eq hbl, hbv]
    have hAg : sqNorm Ab = (M *ᵥ g) ⬝ᵥ (M *ᵥ g) := by rw [sqNorm_eq h2, h3, hbv]
    have hP : 0 < (M *ᵥ g) ⬝ᵥ (M *ᵥ g) := image_descent_pos hg
    have hG : 0 < g ⬝ᵥ g := dot_self_pos hg
    set α := (g ⬝ᵥ g) / ((M *ᵥ g) ⬝ᵥ (M *ᵥ g)) with hα
    have hαpos : 0 < α := div_pos hG hP
    set aL : List ℝ := b.map fun x => α * x with haL
    have haLl : aL.length = A.shape.2 := by simp [haL, hbl]
    have haLv : Spec.vec aL A.shape.2 = a := by rw [haL, vec_smul_list hbl, hbv]
    have hane : a ≠ 0 := by
      simp only [a]
      exact smul_ne_zero hαpos.ne' hg
    have hapos : 0 < nrm aL := by
      rw [nrm_eq haLl, haLv]
      exact Real.sqrt_pos.2 (dot_self_pos hane)
    have hstep : doglegStep (A.map fin) (b.map fin) (gn.map fin) (fin ρ) = .ok (
        if Scal.le (fin ρ) (fin (nrm aL)) = true then (aL.map fin).map fun x => fin ρ / fin (nrm aL) * x
        else List.zipWith (· + ·) (aL.map fin) ((List.zipWith (· - ·) (gn.map fin) (aL.map fin)).map
          fun x => doglegBeta (aL.map fin) (gn.map fin) (fin ρ) * x)) := by
      unfold doglegStep
      rw [hm]
      simp only [py_bind_ok, hlen, if_false, fin_vecNorm, py_pure, fin_sumSq, hbg, hAg]
      rw [fin_div hP.ne', fin_map_mul, ← hα, ← haL, if_neg (by rw [fin_le]; linarith), fin_vecNorm]
    by_cases hsd : ρ ≤ nrm aL
    · refine ⟨aL.map fun x => ρ / nrm aL * x, ?_, by simp [haLl], ?_, Or.inl ⟨ρ / nrm aL, div_pos hρ hapos, (div_le_one hapos).2 hsd, ?_⟩⟩
      · rw [hstep, if_pos ((fin_le _ _).2 hsd), fin_div hapos.ne', fin_map_mul]
      · rw [nrm_eq (n := A.shape.2) (by simp [haLl]), vec_smul_list haLl, smul_dotProduct, dotProduct_smul, smul_eq_mul, smul_eq_mul]
        have hs : nrm aL * nrm aL = Spec.vec aL A.shape.2 ⬝ᵥ Spec.vec aL A.shape.2 := by rw [nrm_sq, sqNorm_eq haLl]
        rw [← hs]
        have : ρ / nrm aL * (ρ / nrm aL * (nrm aL * nrm aL)) = ρ * ρ := by field_simp
        rw [this]
        exact Real.sqrt_mul_self hρ.le
      · rw [vec_smul_list haLl, haLv]
    · have hin : nrm aL < ρ := lt_of_not_ge hsd
      obtain ⟨hK, hD, ho, hbeta⟩ := doglegBeta_fin haLl hgn hρ hin hout
      obtain ⟨-, -, b3, b4, b5⟩ := blending hK hD ho
      simp only [haLv] at hbeta b3 b4 b5
      set c := a ⬝ᵥ (Spec.vec gn A.shape.2 - a)
      set D := (Spec.vec gn A.shape.2 - a) ⬝ᵥ (Spec.vec gn A.shape.2 - a)
      set K := ρ * ρ - a ⬝ᵥ a with hKdef
      set β := (-c + Real.sqrt (c * c + D * K)) / D
      have hdl : ((List.zipWith (· - ·) gn aL).map fun x => β * x).length = A.shape.2 := by simp [hgn, haLl]
      have hzl : (List.zipWith (· - ·) gn aL).length = A.shape.2 := by simp [hgn, haLl]
      have hvec : Spec.vec (List.zipWith (· + ·) aL ((List.zipWith (· - ·) gn aL).map fun x => β * x)) A.shape.2 =
          a + β • (Spec.vec gn A.shape.2 - a) := by
        rw [vec_add_list haLl hdl, vec_smul_list hzl, vec_sub_list hgn haLl, haLv]
      refine ⟨List.zipWith (· + ·) aL ((List.zipWith (· - ·) gn aL).map fun x => β * x), ?_, by simp [haLl, hgn], ?_,
        Or.inr ⟨β, b3, b4, hvec⟩⟩
      · rw [hstep, if_neg (by rw [fin_le]; exact hsd), hbeta, fin_zipWith_sub, fin_map_mul, fin_zipWith_add]
      · rw [nrm_eq (n := A.shape.2) (by simp [haLl, hgn]), hvec]
        have : (a + β • (Spec.vec gn A.shape.2 - a)) ⬝ᵥ (a + β • (Spec.vec gn A.shape.2 - a)) = ρ * ρ := by
          rw [norm_segment]
          have e5 : D * β ^ 2 + 2 * c * β = K := b5
          rw [hKdef] at e5
          show a ⬝ᵥ a + 2 * β * c + β ^ 2 * D = ρ * ρ
          linarith
        rw [this]
        exact Real.sqrt_mul_self hρ.le

end Jaxfg
