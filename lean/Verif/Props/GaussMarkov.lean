/-
Property C100: what the entries of a `SparseCovariance` mean for linear problems with random measurement errors.
-/
import Verif.Spec.GaussMarkov
import Verif.Props.Marginal
import Verif.Props.LinearRate
import Verif.Props.Rejections
import Mathlib.MeasureTheory.Integral.Bochner.SumMeasure

namespace Jaxfg.Props
open Matrix hiding vec
open Spec SparseCovariance MeasureTheory

section
variable {C : Ty → VarClass ℝ} {g : GraphOps ℝ} {ws : List Var}

theorem modelCost_shape {A : Coo ℝ} {m n : Nat} (hs : A.shape = (m, n)) (r d : List ℝ) :
    modelCost (cooMatrix A A.shape.1 A.shape.2) (Spec.vec r A.shape.1) (Spec.vec d A.shape.2) =
      modelCost (cooMatrix A m n) (Spec.vec r m) (Spec.vec d n) := by
  obtain ⟨rfl, rfl⟩ : A.shape.1 = m ∧ A.shape.2 = n := by rw [hs]; exact ⟨rfl, rfl⟩
  rfl

theorem mulVec_shape {A : Coo ℝ} {m n : Nat} (hs : A.shape = (m, n)) {y d : List ℝ}
    (h : Spec.vec y A.shape.1 = cooMatrix A A.shape.1 A.shape.2 *ᵥ Spec.vec d A.shape.2) :
    Spec.vec y m = cooMatrix A m n *ᵥ Spec.vec d n := by
  obtain ⟨rfl, rfl⟩ : A.shape.1 = m ∧ A.shape.2 = n := by rw [hs]; exact ⟨rfl, rfl⟩
  exact h

/-- With the default retraction, a step adds to the storage. -/
theorem retract_entries (hg : SaneGraph C g ws) (hE : UsesDefaultRetraction C ws) {a b : Assign ℝ} (ha : IsAssignmentOf C ws a)
    (hla : a.layout = g.layout) {d : List ℝ} (hd : d.length = g.localLayout.dim) (hb : a.manifoldRetract C ⟨d, g.localLayout⟩ = .ok b) :
    a.storage.length = d.length ∧ b.storage.length = d.length ∧ b.layout = a.layout ∧
      ∀ i, b.storage.getD i 0 = a.storage.getD i 0 + d.getD i 0 := by
  have hfl : a.layout.localFlag = false := by rw [hla, hg.layout]; rfl
  have hδ : IsAssignmentOf C ws ⟨d, g.localLayout⟩ := ⟨hg.nodup, by simp only [hg.localLayout, make_localFlag], hd⟩
  obtain ⟨h1, h2⟩ := retract_adds C hg.classes ws a _ ha hfl hδ (by simp only [hg.localLayout, make_localFlag]) hE
  rw [h1] at hb
  cases Except.ok.inj hb
  have h2' : a.storage.length = d.length := h2
  refine ⟨h2', by simp [h2'], rfl, fun i => ?_⟩
  by_cases hi : i < d.length
  · rw [getD_lt _ (by simp [h2', hi]), getD_lt _ (by rw [h2']; exact hi), getD_lt _ hi, List.getElem_zipWith]
  · rw [List.getD_eq_default _ _ (by simp [h2']; omega), List.getD_eq_default _ _ (by rw [h2']; omega),
      List.getD_eq_default _ _ (by omega), add_zero]

/-- In a linear problem with the default retraction all Jacobians denote the same matrix. -/
theorem affine_jacobian (hT : TotalGraph C g ws) (haff : AffineGraph C g ws) (hE : UsesDefaultRetraction C ws) {a b : Assign ℝ}
    (ha : IsAssignmentOf C ws a) (hla : a.layout = g.layout) (hb : IsAssignmentOf C ws b) (hlb : b.layout = g.layout)
    {c c' : ℝ} {r r' : List ℝ} (hc : g.computeCost a = .ok (c, r)) (hc' : g.computeCost b = .ok (c', r')) {A B : Coo ℝ}
    (hA : g.jacobian a r = .ok A) (hB : g.jacobian b r' = .ok B) {m n : Nat} (hs : A.shape = (m, n)) :
    B.shape = (m, n) ∧ cooMatrix B m n = cooMatrix A m n := by
  have hg := hT.sane
  obtain ⟨hAwf, hAdim⟩ := hg.jacobian _ _ _ _ _ ha hla ha hla hc hA
  obtain ⟨hBwf, hBdim⟩ := hg.jacobian _ _ _ _ _ hb hlb hb hlb hc' hB
  have hArows : A.shape.1 = r.length := by
    obtain ⟨A', e1, e2⟩ := hT.jacobian a a c r ha hla ha hla hc
    rw [hA] at e1; cases Except.ok.inj e1; exact e2
  have hBrows : B.shape.1 = r'.length := by
    obtain ⟨A', e1, e2⟩ := hT.jacobian b b c' r' hb hlb hb hlb hc'
    rw [hB] at e1; cases Except.ok.inj e1; exact e2
  obtain ⟨e, he1, he2⟩ := retract_reaches hg hE ha hla hb hlb
  obtain ⟨y, y1, y2, y3⟩ := haff _ _ _ _ _ _ _ _ ha hla hc hA he1 he2 hc'
  have hsh : B.shape = A.shape := Prod.ext (by rw [hArows, hBrows, y2]) (by rw [hAdim, hBdim])
  obtain ⟨_, _, hy⟩ := matmul_vec hAwf y1
  refine ⟨hsh.trans hs, ?_⟩
  have key : ∀ d : List ℝ, d.length = n → cooMatrix B m n *ᵥ Spec.vec d n = cooMatrix A m n *ᵥ Spec.vec d n := by
    intro d hd
    have hn : A.shape.2 = n := by rw [hs]
    have hd' : d.length = g.localLayout.dim := by rw [hd, ← hAdim, hn]
    obtain ⟨q, -, -, hq, -, -⟩ := hT.retract hb hlb hd'
    obtain ⟨q1, q2⟩ : IsAssignmentOf C ws q ∧ q.layout = g.layout := by
      obtain ⟨i1, i2, i3, i4⟩ := retract_entries hg hE hb hlb hd' hq
      have i5 : q.layout = g.layout := i3.trans hlb
      exact ⟨⟨hb.1, by rw [i3]; exact hb.2.1, by rw [i2, ← i1, hb.2.2, i3]⟩, i5⟩
    obtain ⟨cq, rq, hcq⟩ := hT.cost q q1 q2
    obtain ⟨f, hf1, hf2⟩ := retract_reaches hg hE ha hla q1 q2
    obtain ⟨z, z1, z2, z3⟩ := haff _ _ _ _ _ _ _ _ ha hla hc hA hf1 hf2 hcq
    obtain ⟨x, x1, x2, x3⟩ := haff _ _ _ _ _ _ _ _ hb hlb hc' hB hd' hq hcq
    obtain ⟨_, _, hz⟩ := matmul_vec hAwf z1
    obtain ⟨_, _, hx⟩ := matmul_vec hBwf x1
    have e1 := (retract_entries hg hE ha hla he1 he2).2.2.2
    have e2 := (retract_entries hg hE hb hlb hd' hq).2.2.2
    have e3 := (retract_entries hg hE ha hla hf1 hf2).2.2.2
    have hx := mulVec_shape (hsh.trans hs) hx
    have hy := mulVec_shape hs hy
    have hz := mulVec_shape hs hz
    have hf : Spec.vec f n = Spec.vec e n + Spec.vec d n := by
      funext i
      have k1 := e1 i; have k2 := e2 i; have k3 := e3 i
      show f.getD i 0 = e.getD i 0 + d.getD i 0
      linarith
    rw [← hx]
    rw [hf, mulVec_add, ← hy] at hz
    have : Spec.vec x m = Spec.vec z m - Spec.vec y m := by
      funext i
      have k1 := x3 i; have k2 := y3 i; have k3 := z3 i
      show x.getD i 0 = z.getD i 0 - y.getD i 0
      linarith
    rw [this, hz]
    simp
  ext i j
  have := congrFun (key (List.ofFn (Pi.single j 1)) (by simp)) i
  have hv : Spec.vec (List.ofFn (Pi.single j (1 : ℝ))) n = Pi.single j 1 := by
    funext k
    simp [Spec.vec]
  rw [hv] at this
  simpa using this

end

/-- The minimizer of a full-rank linear least-squares problem is unique. -/
theorem minimizer_unique {m n : Nat} {M : Matrix (Fin m) (Fin n) ℝ} {r : Fin m → ℝ} (hpd : (Mᵀ * M).PosDef) {x : Fin n → ℝ}
    (h : ∀ y, modelCost M r x ≤ modelCost M r y) : x = (Mᵀ * M)⁻¹ *ᵥ descent M r := by
  obtain ⟨z, hz⟩ : ∃ z, z = (Mᵀ * M)⁻¹ *ᵥ descent M r := ⟨_, rfl⟩
  have hu : IsUnit (Mᵀ * M).det := hpd.det_pos.ne'.isUnit
  have hn : (Mᵀ * M) *ᵥ z = descent M r := by rw [hz, mulVec_mulVec, mul_nonsing_inv _ hu, one_mulVec]
  rw [← hz]
  by_contra hne
  have e : ∀ u v : Fin n → ℝ, u ⬝ᵥ (Mᵀ * M) *ᵥ v = (M *ᵥ u) ⬝ᵥ (M *ᵥ v) := by
    intro u v
    rw [← mulVec_mulVec, dotProduct_mulVec, vecMul_transpose]
  have hp := hpd.dotProduct_mulVec_pos (x := x - z) (sub_ne_zero.2 hne)
  simp only [star_trivial] at hp
  rw [e, mulVec_sub] at hp
  have h1 := h z
  rw [modelCost_expand, modelCost_expand, ← hn, e, e] at h1
  simp only [sub_dotProduct, dotProduct_sub, dotProduct_comm (M *ᵥ z) (M *ᵥ x)] at hp
  linarith

section
variable {F : Nat → FactorClass} {C : Ty → VarClass ℝ} {ws : List Var} {g : Graph}

theorem cost_of_residual {a : Assign ℝ} {r : List ℝ} (h : g.computeWhitenedResidualVector F C a = .ok r) :
    (g.ops F C).computeCost a = .ok ((r.map fun x => x ^ 2).sum, r) := by
  show g.computeCost F C a = _
  unfold Graph.computeCost
  rw [h]; rfl

theorem residual_of_cost {a : Assign ℝ} {c : ℝ} {r : List ℝ} (h : (g.ops F C).computeCost a = .ok (c, r)) :
    g.computeWhitenedResidualVector F C a = .ok r := by
  have h' : g.computeCost F C a = .ok (c, r) := h
  unfold Graph.computeCost at h'
  obtain ⟨r', h1, h2⟩ := py_bind_eq_ok.1 h'
  rw [h1]
  exact congrArg _ (Prod.mk.inj (Except.ok.inj h2)).2

/-- What any assignments and the minimum of the cost have to do with the truth. -/
theorem truth_facts (hE : UsesDefaultRetraction C ws) (hT : TotalGraph C (g.ops F C) ws) (haff : AffineGraph C (g.ops F C) ws)
    {truth : Assign ℝ} (ht : IsAssignmentOf C ws truth) (hlt : truth.layout = Layout.make C ws false) {w : List ℝ}
    (hw : g.computeWhitenedResidualVector F C truth = .ok w) {m n : Nat} {M : Matrix (Fin m) (Fin n) ℝ}
    (hM : ∃ A, g.computeWhitenedResidualJacobian F C truth w = .ok A ∧ A.shape = (m, n) ∧ cooMatrix A m n = M)
    {b : Assign ℝ} (hb : IsAssignmentOf C ws b) (hlb : b.layout = Layout.make C ws false) :
    b.storage.length = n ∧
    (∀ r, g.computeWhitenedResidualVector F C b = .ok r → Spec.vec r m = M *ᵥ (Spec.vec b.storage n - Spec.vec truth.storage n) + Spec.vec w m) ∧
    ((Mᵀ * M).PosDef → IsMinimum C (g.ops F C) ws b →
      Spec.vec b.storage n - Spec.vec truth.storage n = (-((Mᵀ * M)⁻¹ * Mᵀ)) *ᵥ Spec.vec w m) := by
  obtain ⟨A, hA, hs, hAM⟩ := hM
  have hg := hT.sane
  have hlay : (g.ops F C).layout = Layout.make C ws false := hg.layout
  have hc0 := cost_of_residual hw
  have hl1 : truth.layout = (g.ops F C).layout := hlt.trans hlay.symm
  have hl2 : b.layout = (g.ops F C).layout := hlb.trans hlay.symm
  obtain ⟨hwf, hdim⟩ := hg.jacobian _ _ _ _ _ ht hl1 ht hl1 hc0 hA
  have hrows : w.length = A.shape.1 := by
    obtain ⟨A', e1, e2⟩ := hT.jacobian _ _ _ _ ht hl1 ht hl1 hc0
    have e1' := e1.symm.trans hA
    cases Except.ok.inj e1'; exact e2.symm
  obtain ⟨d, hd1, hd2⟩ := retract_reaches hg hE ht hl1 hb hl2
  obtain ⟨k1, k2, k3, k4⟩ := retract_entries hg hE ht hl1 hd1 hd2
  have hdn : d.length = n := by rw [hd1, ← hdim, hs]
  have hdv : Spec.vec b.storage n - Spec.vec truth.storage n = Spec.vec d n := by
    funext i
    have := k4 i
    show b.storage.getD i 0 - truth.storage.getD i 0 = d.getD i 0
    linarith
  rw [hdv]
  refine ⟨k2.trans hdn, fun r hr => ?_, fun hpd hmin => ?_⟩
  · obtain ⟨y, y1, -, y3⟩ := haff _ _ _ _ _ _ _ _ ht hl1 hc0 hA hd1 hd2 (cost_of_residual hr)
    obtain ⟨-, -, y4⟩ := matmul_vec hwf y1
    rw [← hAM, ← mulVec_shape hs y4]
    funext i
    exact y3 i
  · obtain ⟨c1, r1, hc1⟩ := hT.cost _ hb hl2
    have hcd := affine_cost hg haff ht hl1 hc0 hA hrows hd1 hd2 hc1
    have hx : Spec.vec d n = (Mᵀ * M)⁻¹ *ᵥ descent M (Spec.vec w m) := by
      refine minimizer_unique hpd fun y => ?_
      have hyl : (List.ofFn y).length = (g.ops F C).localLayout.dim := by rw [List.length_ofFn, ← hdim, hs]
      obtain ⟨b, -, -, hb, -, -⟩ := hT.retract ht hl1 hyl
      obtain ⟨i1, i2, i3, i4⟩ := retract_entries hg hE ht hl1 hyl hb
      have hb1 : IsAssignmentOf C ws b := ⟨ht.1, by rw [i3]; exact ht.2.1, by rw [i2, ← i1, ht.2.2, i3]⟩
      obtain ⟨c2, r2, hc2⟩ := hT.cost b hb1 (i3.trans hl1)
      have hcy := affine_cost hg haff ht hl1 hc0 hA hrows hyl hb hc2
      have := hmin _ _ _ _ _ hc1 hb1 (i3.trans hl1) hc2
      rw [hcd, hcy, modelCost_shape hs, modelCost_shape hs, hAM] at this
      have hv : Spec.vec (List.ofFn y) n = y := by funext k; simp [Spec.vec]
      rwa [hv] at this
    rw [hx]
    unfold descent
    rw [mulVec_neg, mulVec_neg, mulVec_mulVec, neg_mulVec]

end

section
variable {Ω : Type} [MeasurableSpace Ω] {μ : Measure Ω}

/-- Moments of linear images of white noise. -/
theorem white_linear {m n : Nat} {w : Ω → List ℝ} (hw : White μ m w) (K : Matrix (Fin n) (Fin m) ℝ) (i j : Fin n) :
    ∫ ω, (K *ᵥ Spec.vec (w ω) m) i ∂μ = 0 ∧ ∫ ω, (K *ᵥ Spec.vec (w ω) m) i * (K *ᵥ Spec.vec (w ω) m) j ∂μ = (K * Kᵀ) i j := by
  constructor
  · simp only [mulVec, dotProduct, Spec.vec]
    rw [integral_finsetSum _ fun (k : Fin m) _ => (hw.integrable k k.2).const_mul _]
    refine Finset.sum_eq_zero fun k _ => ?_
    rw [integral_const_mul]
    rw [hw.mean k k.2, mul_zero]
  · have e : ∀ ω, (K *ᵥ Spec.vec (w ω) m) i * (K *ᵥ Spec.vec (w ω) m) j =
        ∑ k, ∑ l, K i k * K j l * ((w ω).getD k 0 * (w ω).getD l 0) := by
      intro ω
      simp only [mulVec, dotProduct, Finset.sum_mul_sum, Spec.vec]
      exact Finset.sum_congr rfl fun k _ => Finset.sum_congr rfl fun l _ => by ring
    simp only [e]
    rw [integral_finsetSum _ fun (k : Fin m) _ => integrable_finsetSum _ fun (l : Fin m) _ => (hw.products k k.2 l l.2).const_mul _]
    simp only [mul_apply, transpose_apply]
    refine Finset.sum_congr rfl fun k _ => ?_
    rw [integral_finsetSum _ fun (l : Fin m) _ => (hw.products k k.2 l l.2).const_mul _]
    rw [Finset.sum_eq_single k]
    · rw [integral_const_mul, hw.covariance k k.2 k k.2, if_pos rfl, mul_one]
    · intro l _ hl
      rw [integral_const_mul, hw.covariance k k.2 l l.2, if_neg (fun h => hl (Fin.ext h.symm)), mul_zero]
    · simp

/-- **C100.** Let the measurements be random, such that the residual is affine in the variables (which use the default retraction), with
a fixed Jacobian `M` of full rank, and the whitened residual at the true values has mean zero and identity covariance. Then the global
minimum of the cost has, as an estimate of the true values, errors with mean zero, and the covariances of the errors are what
`SparseCovariance` returns, for any outcome of the measurements and taken at any assignments: exactly those for the natural ordering
of CHOLMOD, and otherwise those for the variables permuted by the ordering that it chose. -/
theorem C100_error_covariance (lib : CholmodChoice) (F : Nat → FactorClass) (C : Ty → VarClass ℝ) {ws : List Var}
    (hE : UsesDefaultRetraction C ws) {g : Ω → Graph} (hT : ∀ ω, TotalGraph C ((g ω).ops F C) ws)
    (haff : ∀ ω, AffineGraph C ((g ω).ops F C) ws) {truth : Assign ℝ} (ht : IsAssignmentOf C ws truth)
    (hlt : truth.layout = Layout.make C ws false) {w : Ω → List ℝ}
    (hw : ∀ ω, (g ω).computeWhitenedResidualVector F C truth = .ok (w ω)) {m n : Nat} {M : Matrix (Fin m) (Fin n) ℝ}
    (hM : ∀ ω, ∃ A, (g ω).computeWhitenedResidualJacobian F C truth (w ω) = .ok A ∧ A.shape = (m, n) ∧ cooMatrix A m n = M)
    (hpd : (Mᵀ * M).PosDef) (hwhite : White μ m w) {est : Ω → Assign ℝ} (he : ∀ ω, IsAssignmentOf C ws (est ω))
    (hle : ∀ ω, (est ω).layout = Layout.make C ws false) (hmin : ∀ ω, IsMinimum C ((g ω).ops F C) ws (est ω)) :
    let err := fun ω i => (est ω).storage.getD i 0 - truth.storage.getD i 0
    (∀ ω, (est ω).storage.length = n) ∧ (∀ i < n, ∫ ω, err ω i ∂μ = 0) ∧
    ∀ ω a, IsAssignmentOf C ws a → a.layout = Layout.make C ws false →
      ∃ σ : Equiv.Perm (Fin n), (∃ p, σ = lib.order p n) ∧
      ∃ c, SparseCovariance.make lib F C (g ω) a = .ok c ∧ ∀ cache, Reachable c cache → ∀ (i j : Fin n) (depth : Nat),
        2 * n ≤ depth + i + j + 1 → (c.getItem depth i j cache).1 = .ok (∫ ω, err ω (σ i) * err ω (σ j) ∂μ) := by
  intro err
  have hlay : ∀ ω, ((g ω).ops F C).layout = Layout.make C ws false := fun ω => (hT ω).sane.layout
  have hfact := fun ω => truth_facts hE (hT ω) (haff ω) ht hlt (hw ω) (hM ω) (he ω) (hle ω)
  have herr : ∀ ω (i : Fin n), err ω i = ((-((Mᵀ * M)⁻¹ * Mᵀ)) *ᵥ Spec.vec (w ω) m) i :=
    fun ω i => congrFun ((hfact ω).2.2 hpd (hmin ω)) i
  have hcov : ∀ i j : Fin n, ∫ ω, err ω i * err ω j ∂μ = ((Mᵀ * M)⁻¹) i j := by
    intro i j
    simp only [herr]
    rw [(white_linear hwhite _ i j).2]
    have hu : IsUnit (Mᵀ * M).det := hpd.det_pos.ne'.isUnit
    have hsym : (Mᵀ * M)⁻¹ᵀ = (Mᵀ * M)⁻¹ := by
      rw [transpose_nonsing_inv, transpose_mul, transpose_transpose]
    rw [transpose_neg, Matrix.neg_mul, Matrix.mul_neg, neg_neg, transpose_mul, hsym, transpose_transpose, Matrix.mul_assoc, ← Matrix.mul_assoc Mᵀ, mul_nonsing_inv _ hu,
      Matrix.mul_one]
  refine ⟨fun ω => (hfact ω).1, fun i hi => ?_, fun ω a ha hla => ?_⟩
  · have : ∀ ω, err ω i = ((-((Mᵀ * M)⁻¹ * Mᵀ)) *ᵥ Spec.vec (w ω) m) ⟨i, hi⟩ := fun ω => herr ω ⟨i, hi⟩
    simp only [this]
    exact (white_linear hwhite _ _ ⟨i, hi⟩).1
  · obtain ⟨A, hA, hs, hAM⟩ := hM ω
    have hl1 : truth.layout = ((g ω).ops F C).layout := hlt.trans (hlay ω).symm
    have hl2 : a.layout = ((g ω).ops F C).layout := hla.trans (hlay ω).symm
    obtain ⟨c, r, hc⟩ := (hT ω).cost a ha hl2
    obtain ⟨B, hB, -⟩ := (hT ω).jacobian _ _ _ _ ha hl2 ha hl2 hc
    obtain ⟨hBs, hBM⟩ := affine_jacobian (hT ω) (haff ω) hE ht hl1 ha hl2 (cost_of_residual (hw ω)) hc hA hB hs
    have hBwf := ((hT ω).sane.jacobian _ _ _ _ _ ha hl2 ha hl2 hc hB).1
    have hn : B.shape.2 = n := by rw [hBs]
    have hm : B.shape.1 = m := by rw [hBs]
    obtain ⟨σ, h1, h2⟩ := covariance_factor lib F C (residual_of_cost hc) hB hBwf hn
    rw [hm, hBM, hAM] at h2
    obtain ⟨L, h3, h4, h5⟩ := h2.1 hpd
    refine ⟨σ, h1, _, h3, fun cache hr i j depth hd => ?_⟩
    rw [(C51_entries h4 hr i j depth hd).1, h5, hcov]
    rfl

/-- **C100, no linear estimate is better.** In the same setting take any assignments `a`, and any matrix `B` with `B M = 1` (those for which
the estimate `a - B r(a)` is without error if the measurements are). The estimate has errors with mean zero, and no combination of its
errors has a smaller variance than the same combination of the errors of the minimum of the cost. -/
theorem C100_best (F : Nat → FactorClass) (C : Ty → VarClass ℝ) {ws : List Var}
    (hE : UsesDefaultRetraction C ws) {g : Ω → Graph} (hT : ∀ ω, TotalGraph C ((g ω).ops F C) ws)
    (haff : ∀ ω, AffineGraph C ((g ω).ops F C) ws) {truth : Assign ℝ} (ht : IsAssignmentOf C ws truth)
    (hlt : truth.layout = Layout.make C ws false) {w : Ω → List ℝ}
    (hw : ∀ ω, (g ω).computeWhitenedResidualVector F C truth = .ok (w ω)) {m n : Nat} {M : Matrix (Fin m) (Fin n) ℝ}
    (hM : ∀ ω, ∃ A, (g ω).computeWhitenedResidualJacobian F C truth (w ω) = .ok A ∧ A.shape = (m, n) ∧ cooMatrix A m n = M)
    (hpd : (Mᵀ * M).PosDef) (hwhite : White μ m w) {est : Ω → Assign ℝ} (he : ∀ ω, IsAssignmentOf C ws (est ω))
    (hle : ∀ ω, (est ω).layout = Layout.make C ws false) (hmin : ∀ ω, IsMinimum C ((g ω).ops F C) ws (est ω))
    {a : Assign ℝ} (ha : IsAssignmentOf C ws a) (hla : a.layout = Layout.make C ws false) {r : Ω → List ℝ}
    (hr : ∀ ω, (g ω).computeWhitenedResidualVector F C a = .ok (r ω)) {B : Matrix (Fin n) (Fin m) ℝ} (hB : B * M = 1) :
    let err : Ω → Fin n → ℝ := fun ω => Spec.vec (est ω).storage n - Spec.vec truth.storage n
    let err' : Ω → Fin n → ℝ := fun ω => Spec.vec a.storage n - B *ᵥ Spec.vec (r ω) m - Spec.vec truth.storage n
    (∀ i, ∫ ω, err' ω i ∂μ = 0) ∧ ∀ v : Fin n → ℝ, ∫ ω, (v ⬝ᵥ err ω) ^ 2 ∂μ ≤ ∫ ω, (v ⬝ᵥ err' ω) ^ 2 ∂μ := by
  intro err err'
  obtain ⟨K, hK⟩ : ∃ K, K = (Mᵀ * M)⁻¹ * Mᵀ := ⟨_, rfl⟩
  have hu : IsUnit (Mᵀ * M).det := hpd.det_pos.ne'.isUnit
  have hKM : K * M = 1 := by rw [hK, Matrix.mul_assoc, nonsing_inv_mul _ hu]
  have h1 : ∀ ω, err ω = (-K) *ᵥ Spec.vec (w ω) m := fun ω => by
    rw [hK]
    exact (truth_facts hE (hT ω) (haff ω) ht hlt (hw ω) (hM ω) (he ω) (hle ω)).2.2 hpd (hmin ω)
  have h2 : ∀ ω, err' ω = (-B) *ᵥ Spec.vec (w ω) m := fun ω => by
    have := (truth_facts hE (hT ω) (haff ω) ht hlt (hw ω) (hM ω) ha hla).2.1 _ (hr ω)
    show Spec.vec a.storage n - B *ᵥ Spec.vec (r ω) m - Spec.vec truth.storage n = _
    rw [this, mulVec_add, mulVec_mulVec, hB, one_mulVec, neg_mulVec]
    abel
  have var : ∀ (E : Matrix (Fin n) (Fin m) ℝ) (v : Fin n → ℝ), ∫ ω, (v ⬝ᵥ (-E) *ᵥ Spec.vec (w ω) m) ^ 2 ∂μ = (v ᵥ* E) ⬝ᵥ (v ᵥ* E) := by
    intro E v
    have e : ∀ ω, (v ⬝ᵥ (-E) *ᵥ Spec.vec (w ω) m) ^ 2 =
        ((Matrix.of fun _ : Fin 1 => v ᵥ* E) *ᵥ Spec.vec (w ω) m) 0 * ((Matrix.of fun _ : Fin 1 => v ᵥ* E) *ᵥ Spec.vec (w ω) m) 0 := by
      intro ω
      have : ((Matrix.of fun _ : Fin 1 => v ᵥ* E) *ᵥ Spec.vec (w ω) m) 0 = v ⬝ᵥ E *ᵥ Spec.vec (w ω) m := by
        rw [dotProduct_mulVec]; rfl
      rw [this, neg_mulVec, dotProduct_neg]
      ring
    simp only [e]
    rw [(white_linear hwhite _ 0 0).2]
    rfl
  refine ⟨fun i => ?_, fun v => ?_⟩
  · simp only [h2]
    exact (white_linear hwhite _ i i).1
  · simp only [h1, h2]
    rw [var, var]
    have hz : (v ᵥ* B - v ᵥ* K) ⬝ᵥ (v ᵥ* K) = 0 := by
      have : Kᵀ = M * (Mᵀ * M)⁻¹ := by
        rw [hK, transpose_mul, transpose_transpose, transpose_nonsing_inv, transpose_mul, transpose_transpose]
      rw [← vecMul_sub, ← mulVec_transpose K, this, ← mulVec_mulVec, dotProduct_mulVec, vecMul_vecMul, Matrix.sub_mul, hB, hKM, sub_self,
        vecMul_zero, zero_dotProduct]
    have hp : 0 ≤ (v ᵥ* B - v ᵥ* K) ⬝ᵥ (v ᵥ* B - v ᵥ* K) := Finset.sum_nonneg fun i _ => mul_self_nonneg _
    simp only [sub_dotProduct, dotProduct_sub] at hz hp
    rw [dotProduct_comm (v ᵥ* K) (v ᵥ* B)] at hp
    linarith

/-- **C100, what the noise models assume.** Errors with mean zero and the covariance of the noise model are whitened to errors with mean
zero and identity covariance. -/
theorem C100_noise {N : Noise} {n : Nat} (hN : NoiseWF N n n) (hg : NoiseGaussian N) (hd : (noiseMat N n n).det ≠ 0) {e : Ω → List ℝ}
    (hlen : ∀ ω, (e ω).length = n) (hi : ∀ i < n, Integrable (fun ω => (e ω).getD i 0) μ)
    (hp : ∀ i < n, ∀ j < n, Integrable (fun ω => (e ω).getD i 0 * (e ω).getD j 0) μ) (hmean : ∀ i < n, ∫ ω, (e ω).getD i 0 ∂μ = 0)
    (hcov : ∀ i j : Fin n, ∫ ω, (e ω).getD i 0 * (e ω).getD j 0 ∂μ = ((precision N n)⁻¹) i j) :
    ∃ w, (∀ ω, N.whiten (e ω) = .ok (w ω)) ∧ White μ n w := by
  choose w h1 h2 h3 using fun ω => whiten_gaussian hN hg (hlen ω)
  obtain ⟨W, hW⟩ : ∃ W, W = noiseMat N n n := ⟨_, rfl⟩
  have hu : IsUnit W.det := by rw [hW]; exact hd.isUnit
  have hS : W * (precision N n)⁻¹ * Wᵀ = 1 := by
    unfold precision
    rw [← hW, Matrix.mul_inv_rev, ← Matrix.mul_assoc, mul_nonsing_inv _ hu, Matrix.one_mul, nonsing_inv_mul]
    rwa [det_transpose]
  have e1 : ∀ i (hi : i < n), (fun ω => (w ω).getD i 0) = fun ω => ∑ k : Fin n, W ⟨i, hi⟩ k * (e ω).getD k 0 := by
    intro i hi
    funext ω
    rw [hW]
    exact congrFun (h3 ω) ⟨i, hi⟩
  have e2 : ∀ i (hi : i < n) j (hj : j < n), (fun ω => (w ω).getD i 0 * (w ω).getD j 0) =
      fun ω => ∑ k : Fin n, ∑ l : Fin n, W ⟨i, hi⟩ k * W ⟨j, hj⟩ l * ((e ω).getD k 0 * (e ω).getD l 0) := by
    intro i hi j hj
    funext ω
    have a1 := congrFun (e1 i hi) ω
    have a2 := congrFun (e1 j hj) ω
    beta_reduce at a1 a2
    rw [a1, a2, Finset.sum_mul_sum]
    exact Finset.sum_congr rfl fun k _ => Finset.sum_congr rfl fun l _ => by ring
  refine ⟨w, h1, fun i hi' => ?_, fun i hi' j hj' => ?_, fun i hi' => ?_, fun i hi' j hj' => ?_⟩
  · rw [e1 i hi']
    exact integrable_finsetSum _ fun (k : Fin n) _ => (hi k k.2).const_mul _
  · rw [e2 i hi' j hj']
    exact integrable_finsetSum _ fun (k : Fin n) _ => integrable_finsetSum _ fun (l : Fin n) _ => (hp k k.2 l l.2).const_mul _
  · rw [e1 i hi', integral_finsetSum _ fun (k : Fin n) _ => (hi k k.2).const_mul _]
    refine Finset.sum_eq_zero fun k _ => ?_
    rw [integral_const_mul, hmean k k.2, mul_zero]
  · rw [e2 i hi' j hj', integral_finsetSum _ fun (k : Fin n) _ => integrable_finsetSum _ fun (l : Fin n) _ => (hp k k.2 l l.2).const_mul _]
    have : (W * (precision N n)⁻¹ * Wᵀ) ⟨i, hi'⟩ ⟨j, hj'⟩ = if i = j then 1 else 0 := by
      rw [hS, one_apply]
      simp
    rw [← this, Matrix.mul_assoc]
    simp only [mul_apply, transpose_apply]
    refine Finset.sum_congr rfl fun k _ => ?_
    rw [integral_finsetSum _ fun (l : Fin n) _ => (hp k k.2 l l.2).const_mul _, Finset.mul_sum]
    refine Finset.sum_congr rfl fun l _ => ?_
    rw [integral_const_mul, hcov]
    ring

end

/-! ### Example -/

namespace Coin
open Jaxfg.Poly

/-- A fair coin. -/
noncomputable def fair : Measure Bool := (2⁻¹ : ENNReal) • Measure.count

instance : IsFiniteMeasure fair := ⟨by
  have : fair Set.univ = 2⁻¹ * Measure.count (Set.univ : Set Bool) := rfl
  rw [this]
  exact ENNReal.mul_lt_top (by simp) (measure_lt_top _ _)⟩

theorem integral_fair (f : Bool → ℝ) : ∫ ω, f ω ∂fair = (f true + f false) / 2 := by
  have h : ∀ x, fair.real {x} = 2⁻¹ := fun x => by simp [fair, Measure.real]
  rw [integral_fintype .of_finite]
  simp only [h, Fintype.sum_bool, smul_eq_mul]
  ring

/-- The error of the measurement. -/
def toss (ω : Bool) : ℝ := if ω then 1 else -1

theorem white : White fair 1 fun ω => [-toss ω] := by
  refine ⟨fun _ _ => .of_finite, fun _ _ _ _ => .of_finite, fun i hi => ?_, fun i hi j hj => ?_⟩
  · obtain rfl : i = 0 := by omega
    simp [integral_fair, toss]
  · obtain rfl : i = 0 := by omega
    obtain rfl : j = 0 := by omega
    simp [integral_fair, toss]

/-- A scalar `x` with true value zero; `2 x` is measured with an error of plus or minus one. The best estimate is half the measurement, the
variance of its error is one quarter, and so is the entry of the covariance matrix, taken anywhere. -/
example (lib : CholmodChoice) : ∃ (ws : List Var) (g : Bool → Graph) (truth : Assign ℝ) (w : Bool → List ℝ) (M : Matrix (Fin 1) (Fin 1) ℝ)
    (est : Bool → Assign ℝ), UsesDefaultRetraction Ex.C ws ∧ (∀ ω, TotalGraph Ex.C ((g ω).ops F Ex.C) ws) ∧
    (∀ ω, AffineGraph Ex.C ((g ω).ops F Ex.C) ws) ∧ (∀ ω, (g ω).computeWhitenedResidualVector F Ex.C truth = .ok (w ω)) ∧
    (Mᵀ * M).PosDef ∧ White fair 1 w ∧ (∀ ω, IsMinimum Ex.C ((g ω).ops F Ex.C) ws (est ω)) ∧ est true ≠ est false ∧
    ∀ ω v, ∃ c, SparseCovariance.make lib F Ex.C (g ω) (at_ v) = .ok c ∧ (c.getItem 1 0 0 .empty).1 = .ok (1 / 4) := by
  have hE : UsesDefaultRetraction Ex.C [Ex.x] := fun v _ => rfl
  have hw : ∀ ω, (Jaxfg.Poly.g (-toss ω) 2 0).computeWhitenedResidualVector F Ex.C (at_ 0) = .ok [-toss ω] := by
    intro ω
    refine residual_of_cost (c := (-toss ω + 2 * 0 + 0 * 0 ^ 2) ^ 2) ?_
    rw [Jaxfg.Poly.cost_eq]
    congr 3
    ring
  have hM : ∀ ω, ∃ A, (Jaxfg.Poly.g (-toss ω) 2 0).computeWhitenedResidualJacobian F Ex.C (at_ 0) [-toss ω] = .ok A ∧ A.shape = (1, 1) ∧
      cooMatrix A 1 1 = !![2] := by
    intro ω
    refine ⟨_, Jaxfg.Poly.jac_eq (-toss ω) 2 0 0 _, rfl, ?_⟩
    ext i j
    rw [Subsingleton.elim i 0, Subsingleton.elim j 0]
    simp [cooMatrix, entries]
  have hMM : (!![2] : Matrix (Fin 1) (Fin 1) ℝ)ᵀ * !![2] = (4 : ℝ) • 1 := by
    ext i j
    rw [Subsingleton.elim i 0, Subsingleton.elim j 0]
    simp [mul_apply]
    norm_num
  have hpd : ((!![2] : Matrix (Fin 1) (Fin 1) ℝ)ᵀ * !![2]).PosDef := by
    rw [hMM]
    exact PosDef.one.smul (by norm_num)
  have hmin : ∀ ω, IsMinimum Ex.C ((Jaxfg.Poly.g (-toss ω) 2 0).ops F Ex.C) [Ex.x] (at_ (toss ω / 2)) := by
    intro ω c r e c' r' hc he hle hc'
    obtain ⟨v, rfl⟩ := at_of he hle
    rw [Jaxfg.Poly.cost_eq] at hc hc'
    have h1 := (Prod.mk.inj (Except.ok.inj hc)).1
    have h2 := (Prod.mk.inj (Except.ok.inj hc')).1
    have h3 : c = 0 := by rw [← h1]; ring
    rw [h3, ← h2]
    positivity
  refine ⟨[Ex.x], fun ω => Jaxfg.Poly.g (-toss ω) 2 0, at_ 0, fun ω => [-toss ω], !![2], fun ω => at_ (toss ω / 2), hE,
    fun ω => Poly1.total _ _ _, fun ω => affine _ _, hw, hpd, white, hmin, ?_, fun ω v => ?_⟩
  · intro h
    have := congrArg Assign.storage h
    simp only [at_, toss, List.cons.injEq, and_true] at this
    norm_num at this
  · obtain ⟨-, -, h⟩ := C100_error_covariance lib F Ex.C hE (fun ω => Poly1.total _ _ _) (fun ω => affine _ _)
      (at_assignment 0) rfl hw hM hpd white (fun ω => at_assignment (toss ω / 2)) (fun _ => rfl) hmin
    obtain ⟨σ, -, c, h1, h2⟩ := h ω (at_ v) (at_assignment v) rfl
    refine ⟨c, h1, ?_⟩
    have := h2 .empty .make 0 0 1 (by norm_num)
    rw [integral_fair] at this
    rw [Subsingleton.elim (σ 0) 0] at this
    refine this.trans (congrArg _ ?_)
    simp [at_, toss]
    norm_num

end Coin

end Jaxfg.Props
