/-
Property C101: more measurements never increase marginal covariances (jaxfg/experimental/_sparse_covariance.py together with the graph).
-/
import Verif.Lemmas.Compare
import Verif.Props.Likelihood

namespace Jaxfg.Props
open Matrix hiding vec
open Spec SparseCovariance

section
variable {F : Nat → FactorClass} {C : Ty → VarClass ℝ}

/-- **C101, marginal covariances.** Take a graph of any well-formed factors and a larger graph: more factors, in any order, perhaps with
more variables; and assignments with the same values. If both covariance matrices exist, then for any list of variables of the smaller
graph, any combination of their coordinates has in the larger graph a marginal variance that is not greater. -/
theorem C101_marginals (lib : CholmodChoice) (hlib : ∀ p n, lib.order p n = 1) (hC : GoodClasses C) (fs more fs' : List Factor)
    (hp : (fs ++ more).Perm fs') (hne : fs ≠ []) (hfs : ∀ f ∈ fs', FactorWF F C f) (vars vars' : List Var) (val : Var → Value ℝ)
    (a a' : Assign ℝ) (h : Holds C fs vars val a) (h' : Holds C fs' vars' val a') :
    ∃ g g', Graph.make C fs = .ok g ∧ Graph.make C fs' = .ok g' ∧
      ∀ c c', SparseCovariance.make lib F C g a = .ok c → SparseCovariance.make lib F C g' a' = .ok c' →
      ∀ us : List Var, (∀ v ∈ us, v ∈ vars) → ∀ cache cache', Reachable c cache → Reachable c' cache' → ∀ depth : Nat,
        2 * g.localLayout.dim ≤ depth + 1 → 2 * g'.localLayout.dim ≤ depth + 1 →
        ∃ M M', (c.computeMarginal C depth us cache).1 = .ok M ∧ (c'.computeMarginal C depth us cache').1 = .ok M' ∧
          M.length = M'.length ∧ ∀ x, varianceOf M' x ≤ varianceOf M x := by
  have hsub : ∀ f ∈ fs, f ∈ fs' := fun f hf => hp.mem_iff.1 (List.mem_append_left _ hf)
  have hne' : fs' ≠ [] := by
    obtain ⟨f, hf⟩ := List.exists_mem_of_ne_nil _ hne
    exact List.ne_nil_of_mem (hsub f hf)
  have hmem : ∀ v ∈ Graph.variablesOf fs, v ∈ Graph.variablesOf fs' := fun v hv => by
    obtain ⟨f, hf, hfv⟩ := ((variablesOf_spec fs).2 v).1 hv
    exact ((variablesOf_spec fs').2 v).2 ⟨f, hsub f hf, hfv⟩
  obtain ⟨w, R, hR⟩ := factor_parts hfs (fun f hf => h'.valuesFor hC hf)
  obtain ⟨g, g', hg, hg', k⟩ := compare_marginals lib hlib hC hne hne' (fun f hf => hfs f (hsub f hf)) hfs hmem h h'
    (fun f hf => hR f (hsub f hf)) hR (fun e he => seenBy_le hp R e he)
  refine ⟨g, g', hg, hg', fun c c' hc hc' us hus cache cache' hca hca' depth hd hd' => ?_⟩
  obtain ⟨M, M', m1, m2, m3, m4⟩ := k c c' hc hc' us hus cache cache' hca hca' depth hd hd'
  exact ⟨M, M', m1, m2, m3.length, m4⟩

/-- **C101, existence.** If the larger graph has no further variables and the covariance matrix of the smaller graph exists, so does that
of the larger graph. -/
theorem C101_exists (lib : CholmodChoice) (hC : GoodClasses C) (fs more fs' : List Factor)
    (hp : (fs ++ more).Perm fs') (hne : fs ≠ []) (hfs : ∀ f ∈ fs', FactorWF F C f) (vars : List Var) (val : Var → Value ℝ)
    (a a' : Assign ℝ) (h : Holds C fs vars val a) (h' : Holds C fs' vars val a') :
    ∃ g g', Graph.make C fs = .ok g ∧ Graph.make C fs' = .ok g' ∧
      ∀ c, SparseCovariance.make lib F C g a = .ok c → ∃ c', SparseCovariance.make lib F C g' a' = .ok c' := by
  have hsub : ∀ f ∈ fs, f ∈ fs' := fun f hf => hp.mem_iff.1 (List.mem_append_left _ hf)
  have hne' : fs' ≠ [] := by
    obtain ⟨f, hf⟩ := List.exists_mem_of_ne_nil _ hne
    exact List.ne_nil_of_mem (hsub f hf)
  have hmem : ∀ v ∈ Graph.variablesOf fs, v ∈ Graph.variablesOf fs' := fun v hv => by
    obtain ⟨f, hf, hfv⟩ := ((variablesOf_spec fs).2 v).1 hv
    exact ((variablesOf_spec fs').2 v).2 ⟨f, hsub f hf, hfv⟩
  obtain ⟨w, R, hR⟩ := factor_parts hfs (fun f hf => h'.valuesFor hC hf)
  exact compare_exists lib hC hne hne' (fun f hf => hfs f (hsub f hf)) hfs hmem (fun v hv => ((variablesOf_spec fs).2 v).2
    ((h.sameVars v).1 ((h'.sameVars v).2 (((variablesOf_spec fs').2 v).1 hv)))) h h' (fun f hf => hR f (hsub f hf)) hR
    (fun e he => seenBy_le hp R e he)

end

/-- A scalar measured once, `x`, and then a second time, `2 x`: the marginal variance is `1` and then `1/5`. -/
example (lib : CholmodChoice) : ∃ val a, (∀ f ∈ [Poly.f 0 1 0, Poly.f 0 2 0], FactorWF Poly.F Ex.C f) ∧
    Holds Ex.C [Poly.f 0 1 0] [Ex.x] val a ∧ Holds Ex.C [Poly.f 0 1 0, Poly.f 0 2 0] [Ex.x] val a ∧
    ∃ g g' c c', Graph.make Ex.C [Poly.f 0 1 0] = .ok g ∧ Graph.make Ex.C [Poly.f 0 1 0, Poly.f 0 2 0] = .ok g' ∧
      SparseCovariance.make lib Poly.F Ex.C g a = .ok c ∧ SparseCovariance.make lib Poly.F Ex.C g' a = .ok c' ∧
      (c.computeMarginal Ex.C 2 [Ex.x] .empty).1 = .ok [[1]] ∧ (c'.computeMarginal Ex.C 2 [Ex.x] .empty).1 = .ok [[1 / 5]] := by
  obtain ⟨val, h⟩ := Poly1.holds_at 0 1 0 0
  have h' : Holds Ex.C [Poly.f 0 1 0, Poly.f 0 2 0] [Ex.x] val (Poly.at_ 0) :=
    ⟨h.assignment, h.isGlobal, fun v => by simp [Poly.f], h.values⟩
  have hwf : ∀ f ∈ [Poly.f 0 1 0, Poly.f 0 2 0], FactorWF Poly.F Ex.C f := by
    intro f hf
    simp only [List.mem_cons, List.not_mem_nil, or_false] at hf
    rcases hf with rfl | rfl <;> exact Poly.f_wf _ _ _
  have hM : ∀ q, ((noiseMat (Poly.f 0 q 0).noise (rdim (Poly.f 0 q 0)) (rdim (Poly.f 0 q 0)) *
        arrMat (((Poly.F (Poly.f 0 q 0).cls).jacobians (Poly.f 0 q 0).self [val Ex.x]).getD 0 ⟨[], []⟩) (rdim (Poly.f 0 q 0)) 1)ᵀ *
        (noiseMat (Poly.f 0 q 0).noise (rdim (Poly.f 0 q 0)) (rdim (Poly.f 0 q 0)) *
        arrMat (((Poly.F (Poly.f 0 q 0).cls).jacobians (Poly.f 0 q 0).self [val Ex.x]).getD 0 ⟨[], []⟩) (rdim (Poly.f 0 q 0)) 1) :
        Matrix (Fin 1) (Fin 1) ℝ) = (q * q) • 1 := by
    intro q
    have h1 : rdim (Poly.f 0 q 0) = 1 := noiseDim_eq (⟨⟨rfl, rfl⟩, rfl⟩ : NoiseWF (Poly.f 0 q 0).noise 1 1)
    generalize rdim (Poly.f 0 q 0) = d at h1 ⊢
    subst h1
    ext i j
    rw [Subsingleton.elim i 0, Subsingleton.elim j 0]
    have h2 : (noiseMat (Poly.f 0 q 0).noise 1 1 *
        arrMat (((Poly.F (Poly.f 0 q 0).cls).jacobians (Poly.f 0 q 0).self [val Ex.x]).getD 0 ⟨[], []⟩) 1 1 : Matrix (Fin 1) (Fin 1) ℝ) 0 0 = q := by
      rw [mul_apply, Fin.sum_univ_one]
      have h3 : arrMat (((Poly.F (Poly.f 0 q 0).cls).jacobians (Poly.f 0 q 0).self [val Ex.x]).getD 0 ⟨[], []⟩) 1 1 0 0 =
        q + 2 * 0 * ([val Ex.x].getD 0 ⟨0, []⟩).flatten.getD 0 0 := rfl
      have h4 : noiseMat (Poly.f 0 q 0).noise 1 1 0 0 = if (0 : Fin 1).val = (0 : Fin 1).val then 1 else 0 := rfl
      rw [h3, h4, if_pos rfl]
      ring
    rw [mul_apply, Fin.sum_univ_one, transpose_apply, h2]
    simp
  have pd : ∀ k : ℝ, 0 < k → (k • (1 : Matrix (Fin 1) (Fin 1) ℝ)).PosDef := fun k hk => PosDef.one.smul hk
  have inv : ∀ k : ℝ, 0 < k → (k • (1 : Matrix (Fin 1) (Fin 1) ℝ))⁻¹ 0 0 = k⁻¹ := fun k hk => by
    rw [inv_eq_right_inv (B := k⁻¹ • 1) (by rw [smul_mul_smul_comm, mul_inv_cancel₀ hk.ne', one_mul, one_smul])]
    simp
  obtain ⟨g, h1, h2, -⟩ := C82_one_variable (F := Poly.F) (C := Ex.C) lib Ex.good Ex.x [Poly.f 0 1 0] (by simp)
    (fun f hf => hwf f (by simp only [List.mem_singleton] at hf; simp [hf])) (by simp [Poly.f]) (by simp [Poly.f, NoiseGaussian]) [Ex.x] val
    (Poly.at_ 0) h 1 (Ex.localDim _)
  obtain ⟨g', h1', h2', -⟩ := C82_one_variable (F := Poly.F) (C := Ex.C) lib Ex.good Ex.x [Poly.f 0 1 0, Poly.f 0 2 0] (by simp)
    hwf (by simp [Poly.f]) (by simp [Poly.f, NoiseGaussian]) [Ex.x] val (Poly.at_ 0) h' 1 (Ex.localDim _)
  simp only [List.map_cons, List.map_nil, List.sum_cons, List.sum_nil, hM, add_zero, ← add_smul] at h2 h2'
  obtain ⟨c, σ, e1, -, e2⟩ := h2 (pd _ (by norm_num))
  obtain ⟨c', σ', e1', -, e2'⟩ := h2' (pd _ (by norm_num))
  refine ⟨val, Poly.at_ 0, hwf, h, h', g, g', c, c', h1, h1', e1, e1', (e2 _ .make 2 (by norm_num)).trans ?_,
    (e2' _ .make 2 (by norm_num)).trans ?_⟩
  · simp only [List.ofFn_succ, List.ofFn_zero, Subsingleton.elim (σ 0) 0, inv _ (show (0 : ℝ) < 1 * 1 by norm_num)]
    norm_num
  · simp only [List.ofFn_succ, List.ofFn_zero, Subsingleton.elim (σ' 0) 0, inv _ (show (0 : ℝ) < 1 * 1 + 2 * 2 by norm_num)]
    norm_num

end Jaxfg.Props
