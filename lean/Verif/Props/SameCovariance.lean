/-
Property C121: estimated covariances do not depend on how the problem is presented (jaxfg/experimental/_sparse_covariance.py together
with the graph).
-/
import Verif.Spec.SameCovariance
import Verif.Lemmas.Compare
import Verif.Props.Information
import Verif.Props.Inliers
import Verif.Props.Signs
import Verif.Props.Equivariance
import Verif.Props.Anchored

namespace Jaxfg.Props
open Spec SparseCovariance

section
variable {F : Nat → FactorClass} {C : Ty → VarClass ℝ}

/-- Symmetric matrices with the same variances are the same. -/
theorem SymmetricPair.eq {M M' : List (List ℝ)} (h : SymmetricPair M M') (hv : ∀ x, varianceOf M' x = varianceOf M x) : M' = M := by
  -- the entries from the variances
  have pol : ∀ {N : List (List ℝ)}, (∀ p q, p < N.length → q < N.length → (N.getD p []).getD q 0 = (N.getD q []).getD p 0) →
      ∀ p q, p < N.length → q < N.length → varianceOf N (Pi.single p 1 + Pi.single q 1) - varianceOf N (Pi.single p 1) -
        varianceOf N (Pi.single q 1) = 2 * (N.getD p []).getD q 0 := by
    intro N hN p q hp hq
    have bil : ∀ x y : Nat → ℝ, varianceOf N (x + y) - varianceOf N x - varianceOf N y =
        ∑ i ∈ Finset.range N.length, ∑ j ∈ Finset.range N.length, (x i * y j + y i * x j) * (N.getD i []).getD j 0 := by
      intro x y
      unfold varianceOf
      rw [← Finset.sum_sub_distrib, ← Finset.sum_sub_distrib]
      refine Finset.sum_congr rfl fun i _ => ?_
      rw [← Finset.sum_sub_distrib, ← Finset.sum_sub_distrib]
      refine Finset.sum_congr rfl fun j _ => ?_
      simp only [Pi.add_apply]
      ring
    have one : ∀ p q, p < N.length → q < N.length → ∑ i ∈ Finset.range N.length, ∑ j ∈ Finset.range N.length,
        ((Pi.single p 1 : Nat → ℝ) i * (Pi.single q 1 : Nat → ℝ) j) * (N.getD i []).getD j 0 = (N.getD p []).getD q 0 := by
      intro p q hp hq
      rw [Finset.sum_eq_single_of_mem p (Finset.mem_range.2 hp) fun i _ hi => by simp [Pi.single_apply, hi],
        Finset.sum_eq_single_of_mem q (Finset.mem_range.2 hq) fun j _ hj => by simp [hj]]
      simp
    rw [bil]
    simp only [add_mul, Finset.sum_add_distrib]
    rw [one p q hp hq, one q p hq hp, hN q p hq hp]
    ring
  refine List.ext_getElem h.length.symm fun p hp hp' => ?_
  have l1 := h.rows' _ (List.getElem_mem hp)
  have l2 := h.rows _ (List.getElem_mem hp')
  refine List.ext_getElem (by rw [l1, l2, h.length]) fun q hq hq' => ?_
  have e1 := pol h.symm' p q hp (by rw [← l1]; exact hq)
  have e2 := pol h.symm p q hp' (by rw [← l2]; exact hq')
  simp only [hv] at e1
  have e3 : (M'.getD p []).getD q 0 = (M.getD p []).getD q 0 := by linarith
  simpa [List.getD_eq_getElem?_getD, List.getElem?_eq_getElem hp, List.getElem?_eq_getElem hp', List.getElem?_eq_getElem hq,
    List.getElem?_eq_getElem hq'] using e3

/-- Two graphs that see the same of every direction have the same marginal covariances. -/
theorem same_covariances (lib : CholmodChoice) (hlib : ∀ p n, lib.order p n = 1) (hC : GoodClasses C) {fs fs' : List Factor}
    (hne : fs ≠ []) (hne' : fs' ≠ []) (hfs : ∀ f ∈ fs, FactorWF F C f) (hfs' : ∀ f ∈ fs', FactorWF F C f)
    (hmem : ∀ v, v ∈ Graph.variablesOf fs ↔ v ∈ Graph.variablesOf fs') {vars vars' : List Var} {val val' : Var → Value ℝ}
    {a a' : Assign ℝ} (h : Holds C fs vars val a) (h' : Holds C fs' vars' val' a') {w w' : Factor → List ℝ} {R R' : Factor → List (Arr ℝ)}
    (hR : ∀ f ∈ fs, whitenedAt F val f = .ok (w f) ∧ (w f).length = rdim f ∧
      ((F f.cls).jacobians f.self (f.vars.map val)).mapM (fun J => f.noise.whitenJacobian J (w f)) = .ok (R f))
    (hR' : ∀ f ∈ fs', whitenedAt F val' f = .ok (w' f) ∧ (w' f).length = rdim f ∧
      ((F f.cls).jacobians f.self (f.vars.map val')).mapM (fun J => f.noise.whitenJacobian J (w' f)) = .ok (R' f))
    (heq : ∀ e : Var → List ℝ, (∀ v ∈ Graph.variablesOf fs, (e v).length = (C v.ty).localDim) → seenBy C fs' R' e = seenBy C fs R e) :
    ∃ g g', Graph.make C fs = .ok g ∧ Graph.make C fs' = .ok g' ∧ SameCovariances lib F C g g' a a' vars := by
  have e1 : ∀ e : Var → List ℝ, (∀ v ∈ Graph.variablesOf fs', (e v).length = (C v.ty).localDim) → seenBy C fs R e ≤ seenBy C fs' R' e :=
    fun e he => (heq e fun v hv => he v ((hmem v).1 hv)).ge
  have e2 : ∀ e : Var → List ℝ, (∀ v ∈ Graph.variablesOf fs, (e v).length = (C v.ty).localDim) → seenBy C fs' R' e ≤ seenBy C fs R e :=
    fun e he => (heq e he).le
  obtain ⟨g, g', hg, hg', k1⟩ := compare_marginals lib hlib hC hne hne' hfs hfs' (fun v => (hmem v).1) h h' hR hR' e1
  obtain ⟨g2', g2, hg2', hg2, k2⟩ := compare_marginals lib hlib hC hne' hne hfs' hfs (fun v => (hmem v).2) h' h hR' hR e2
  obtain ⟨g3, g3', hg3, hg3', k3⟩ := compare_exists lib hC hne hne' hfs hfs' (fun v => (hmem v).1) (fun v => (hmem v).2) h h' hR hR' e1
  obtain ⟨g4', g4, hg4', hg4, k4⟩ := compare_exists lib hC hne' hne hfs' hfs (fun v => (hmem v).2) (fun v => (hmem v).1) h' h hR' hR e2
  rw [hg] at hg2 hg3 hg4; rw [hg'] at hg2' hg3' hg4'
  obtain rfl := Except.ok.inj hg2; obtain rfl := Except.ok.inj hg3; obtain rfl := Except.ok.inj hg4
  obtain rfl := Except.ok.inj hg2'; obtain rfl := Except.ok.inj hg3'; obtain rfl := Except.ok.inj hg4'
  refine ⟨g, g', hg, hg', ⟨fun ⟨c, hc⟩ => k3 c hc, fun ⟨c, hc⟩ => k4 c hc⟩, fun c c' hc hc' us hus cache cache' hca hca' depth hd hd' => ?_⟩
  obtain ⟨M, M', m1, m2, m3, m4⟩ := k1 c c' hc hc' us hus cache cache' hca hca' depth hd hd'
  have hus' : ∀ v ∈ us, v ∈ vars' := fun v hv => (h'.sameVars v).2 (((variablesOf_spec fs').2 v).1 ((hmem v).1 (((variablesOf_spec fs).2 v).2
    ((h.sameVars v).1 (hus v hv)))))
  obtain ⟨M2', M2, n1, n2, -, n4⟩ := k2 c' c hc' hc us hus' cache' cache hca' hca depth hd' hd
  obtain rfl := Except.ok.inj (m1.symm.trans n2)
  obtain rfl := Except.ok.inj (m2.symm.trans n1)
  obtain rfl := m3.eq fun x => le_antisymm (m4 x) (n4 x)
  exact ⟨_, m1, m2⟩

/-- **C121, same information.** Two lists of factors with the same information (see C119), in any orders, and assignments with the same
values, stored in any orders. `SparseCovariance.make` succeeds for one graph if and only if it succeeds for the other one, and then
`compute_marginal` returns the same matrix for any list of variables, whatever was asked before. CHOLMOD must not reorder (see C53). -/
theorem C121_information (lib : CholmodChoice) (hlib : ∀ p n, lib.order p n = 1) (hC : GoodClasses C) (fs fs' : List Factor)
    (hI : SameInformation fs fs') (hne : fs ≠ []) (hne' : fs' ≠ []) (hfs : ∀ f ∈ fs, FactorWF F C f) (hfs' : ∀ f ∈ fs', FactorWF F C f)
    (hb : ∀ f ∈ fs ++ fs', NoiseBlind (F f.cls)) (vars vars' : List Var) (val : Var → Value ℝ) (a a' : Assign ℝ)
    (h : SameValues C fs vars vars' val a a') :
    ∃ g g', Graph.make C fs = .ok g ∧ Graph.make C fs' = .ok g' ∧ SameCovariances lib F C g g' a a' vars := by
  classical
  have hs := variablesOf_spec fs
  have hs' := variablesOf_spec fs'
  have hp := hI.variablesOf
  have h' : Holds C fs' vars' val a' := ⟨h.right.assignment, h.right.isGlobal, fun v => by rw [h.right.sameVars, hI.vars], h.right.values⟩
  have hall : ∀ f ∈ fs ++ fs', FactorWF F C f := fun f hf => (List.mem_append.1 hf).elim (hfs f) (hfs' f)
  have hval : ∀ f ∈ fs ++ fs', ValuesFor C f.vars (f.vars.map val) := fun f hf =>
    (List.mem_append.1 hf).elim (fun hf => h.left.valuesFor hC hf) fun hf => h'.valuesFor hC hf
  obtain ⟨w, R, hR⟩ := factor_parts hall hval
  refine same_covariances lib hlib hC hne hne' hfs hfs' (fun v => hp.mem_iff) h.left h' (fun f hf => hR f (by simp [hf]))
    (fun f hf => hR f (by simp [hf])) fun e he => ?_
  have r1 : Rep C (Graph.variablesOf fs) true e ⟨(grouped (Graph.variablesOf fs)).flatMap e, Layout.make C (Graph.variablesOf fs) true⟩ :=
    ⟨hs.1, rfl, fun v hv => he v hv, rfl⟩
  have r2 : Rep C (Graph.variablesOf fs') true e ⟨(grouped (Graph.variablesOf fs')).flatMap e, Layout.make C (Graph.variablesOf fs') true⟩ :=
    ⟨hs'.1, rfl, fun v hv => he v (hp.mem_iff.2 hv), rfl⟩
  obtain ⟨lpos, hlpos⟩ : ∃ p, p = posIn (Layout.make C (Graph.variablesOf fs) true) := ⟨_, rfl⟩
  obtain ⟨x, hx⟩ : ∃ x, x = (grouped (Graph.variablesOf fs)).flatMap e := ⟨_, rfl⟩
  obtain ⟨ρ, hρ⟩ : ∃ ρ : Nat × List Var × List (Arr ℝ) → Nat → ℝ, ρ = fun q i => ∑ k ∈ Finset.range q.2.1.length,
      blockProd C lpos x (q.2.1.getD k ⟨0, 0⟩) (((F q.1).jacobians (quantitySelf q) (q.2.1.map val)).getD k ⟨[], []⟩) i := ⟨_, rfl⟩
  have piece : ∀ f ∈ fs ++ fs', facProd C lpos R x f = infPiece ρ (facProd C lpos R x) f := by
    intro f hf
    unfold infPiece
    split
    · rw [hρ]
      exact facProd_gaussPiece (hall f hf) (hb f hf) ‹_› (hval f hf) (hR f hf).2.1 (hR f hf).2.2 _ _
    · rfl
  have s1 := hI.sum ρ ρ (facProd C lpos R x) (facProd C lpos R x)
  have t1 : seenBy C fs R e = (fs.map fun f => vdot (infPiece ρ (facProd C lpos R x) f) (infPiece ρ (facProd C lpos R x) f)).sum := by
    unfold seenBy
    rw [← hlpos, ← hx, List.map_congr_left fun f hf => by rw [piece f (by simp [hf])]]
  have t2 : seenBy C fs' R e = (fs'.map fun f => vdot (infPiece ρ (facProd C lpos R x) f) (infPiece ρ (facProd C lpos R x) f)).sum := by
    unfold seenBy
    rw [List.map_congr_left fun f hf => by
      rw [← facProd_blocks r1 r2 (fun v hv => (hs.2 v).2 ((hI.vars v).2 ⟨f, hf, hv⟩)) fun v hv => (hs'.2 v).2 ⟨f, hf, hv⟩, ← hlpos, ← hx,
        piece f (by simp [hf])]]
  rw [t1, t2]
  exact s1

/-- **C121, symmetries.** The same for a problem and its image under a symmetry (see C71 and C118), at values where the symmetry has no
exceptions. -/
theorem C121_symmetry (lib : CholmodChoice) (hlib : ∀ p n, lib.order p n = 1) (hC : GoodClasses C) (fs : List Factor) (hne : fs ≠ [])
    (hfs : ∀ f ∈ fs, FactorWF F C f) (φ : Factor → Factor) (τ : Var → Value ℝ → Value ℝ) (V : Var → Value ℝ → Prop)
    (N : Factor → (Var → Value ℝ) → Prop) (hS : IsSymmetryAway F C fs φ τ V N) (hfs' : ∀ f ∈ fs, FactorWF F C (φ f))
    (vars vars' : List Var) (val : Var → Value ℝ) (a a' : Assign ℝ) (h : Corresponding C fs τ V vars vars' val a a')
    (hN : ∀ f ∈ fs, ¬ N f val) :
    ∃ g g', Graph.make C fs = .ok g ∧ Graph.make C (fs.map φ) = .ok g' ∧ SameCovariances lib F C g g' a a' vars := by
  have hvo : Graph.variablesOf (fs.map φ) = Graph.variablesOf fs := variablesOf_map hS.vars
  have h' : Holds C (fs.map φ) vars' (fun v => τ v (val v)) a' := ⟨h.right.assignment, h.right.isGlobal, fun v => by
    rw [h.right.sameVars, ← (variablesOf_spec _).2, ← hvo, (variablesOf_spec _).2], h.right.values⟩
  have hWF' : ∀ f ∈ fs.map φ, FactorWF F C f := by
    intro f hf
    obtain ⟨f0, h0, rfl⟩ := List.mem_map.1 hf
    exact hfs' f0 h0
  have hv : ∀ f ∈ fs, ∀ v ∈ f.vars, IsValueOf (C v.ty) (val v) ∧ V v (val v) := fun f hf v hv => by
    have hv' : v ∈ vars := (h.left.sameVars v).2 ⟨f, hf, hv⟩
    exact ⟨(stores_of_holds hC h.left).2 v hv', h.valid v hv'⟩
  obtain ⟨w, R, hR⟩ := factor_parts hWF' (fun f hf => h'.valuesFor hC hf)
  refine same_covariances lib hlib hC hne (by simpa using hne) hfs hWF' (fun v => by rw [hvo]) h.left h'
    (w := fun f => w (φ f)) (R := fun f => R (φ f)) (fun f hf => ?_) hR fun e he => ?_
  · obtain ⟨k1, k2, k3⟩ := hR (φ f) (List.mem_map_of_mem hf)
    refine ⟨?_, by rw [k2, hS.rdim_eq hf], ?_⟩
    · rw [← k1]
      unfold whitenedAt
      rw [hS.cls f hf, hS.vars f hf, hS.noise f hf, hS.residual f hf val (hv f hf) (hN f hf)]
    · rw [← k3, hS.cls f hf, hS.vars f hf, hS.noise f hf, hS.jacobians f hf val (hv f hf)]
  · unfold seenBy
    rw [hvo, List.map_map]
    refine congrArg List.sum (List.map_congr_left fun f hf => ?_)
    simp only [Function.comp, facProd, hS.rdim_eq hf, hS.vars f hf]

/-- **C121, moved worlds.** Pose graphs with priors and relative measurements, in other coordinates of the world: all poses and the means of
the priors are multiplied from the left by the same transformation. Covariances refer to the tangent spaces at the poses and do not change. -/
theorem C121_pose_graphs (lib : CholmodChoice) (hlib : ∀ p n, lib.order p n = 1) {K : Ty → LieType} (hK : ∀ t, C t = (K t).ops.varClass)
    (m : LieType → List ℝ) (hm : ∀ k : LieType, k.Valid (m k)) (fs fs' : List Factor) (hne : fs ≠ [])
    (hmv : List.Forall₂ (MovedFactor F K m) fs fs')
    (hnoise : ∀ f ∈ fs, ∀ v ∈ f.vars, NoiseWF f.noise (K v.ty).ops.tangentDim (K v.ty).ops.tangentDim)
    (vars vars' : List Var) (pose : Var → List ℝ) (a a' : Assign ℝ) (hpose : ∀ v ∈ vars, (K v.ty).Valid (pose v))
    (ha : Holds C fs vars (poseValue K pose) a)
    (ha' : Holds C fs' vars' (poseValue K fun v => (K v.ty).ops.multiply (m (K v.ty)) (pose v)) a') :
    ∃ g g', Graph.make C fs = .ok g ∧ Graph.make C fs' = .ok g' ∧ SameCovariances lib F C g g' a a' vars := by
  obtain ⟨rfl, hex⟩ := movedFactors_map F K hmv
  have hS := moved_isSymmetry F C K hK hm hex
  obtain ⟨h1, h2⟩ := movedFactors_wf F C K hK hm hex hnoise
  exact C121_symmetry lib hlib (lie_goodClasses hK) fs hne h1 _ _ _ _ hS h2 vars vars' (poseValue K pose) a a'
    ⟨ha, ⟨ha'.assignment, ha'.isGlobal, fun v => by
      rw [ha'.sameVars, ← (variablesOf_spec _).2, variablesOf_map hS.vars, (variablesOf_spec _).2], fun v hv => by
        rw [ha'.values v hv]; simp only [poseValue, value_flatten]⟩, fun v hv => ⟨pose v, hpose v hv, rfl⟩⟩ fun _ _ h => h

/-- **C121, signs of quaternions.** The same if any of the stored unit quaternions are replaced by their negatives (see C118), at poses
where no measurement is off by exactly half a turn. -/
theorem C121_signs (lib : CholmodChoice) (hlib : ∀ p n, lib.order p n = 1) {K : Ty → LieType} (hK : ∀ t, C t = (K t).ops.varClass)
    (fs : List Factor) (hne : fs ≠ []) (hM : ∀ f ∈ fs, ∃ P, Measures F K f P)
    (hnoise : ∀ f ∈ fs, ∀ v ∈ f.vars, NoiseWF f.noise (K v.ty).ops.tangentDim (K v.ty).ops.tangentDim)
    (e : Factor → Bool) (s : Var → Bool) (vars vars' : List Var) (pose : Var → List ℝ) (a a' : Assign ℝ)
    (hpose : ∀ v ∈ vars, (K v.ty).Valid (pose v)) (ha : Holds C fs vars (poseValue K pose) a)
    (ha' : Holds C (fs.map (resigned K e)) vars' (poseValue K fun v => (K v.ty).signed (s v) (pose v)) a')
    (hN : NoHalfTurn C K fs a) :
    ∃ g g', Graph.make C fs = .ok g ∧ Graph.make C (fs.map (resigned K e)) = .ok g' ∧ SameCovariances lib F C g g' a a' vars := by
  have hS := resigned_isSymmetry F C K hK e s hM
  have h1 : ∀ f ∈ fs, FactorWF F C f := fun f hf =>
    (C54_wellformed F C K f _ (hM f hf).choose_spec fun v hv => ⟨hK _, hnoise f hf v hv⟩).1
  have h2 : ∀ f ∈ fs, FactorWF F C (resigned K e f) := fun f hf =>
    (C54_wellformed F C K _ _ (resigned_measures F K e (hM f hf).choose_spec).choose_spec fun v hv => ⟨hK _, hnoise f hf v hv⟩).1
  refine C121_symmetry lib hlib (lie_goodClasses hK) fs hne h1 _ _ _ _ hS h2 vars vars' (poseValue K pose) a a'
    ⟨ha, ⟨ha'.assignment, ha'.isGlobal, fun v => by
      rw [ha'.sameVars, ← (variablesOf_spec _).2, variablesOf_map hS.vars, (variablesOf_spec _).2], fun v hv => by
        rw [ha'.values v hv]; simp only [poseValue, signedValue, value_flatten]⟩, fun v hv => ⟨pose v, hpose v hv, rfl⟩⟩
    fun f hf hh => hN f hf (fun v => (poseValue K pose v).flatten) (fun v hv => ?_) hh
  rw [ha.values v ((ha.sameVars v).2 ⟨f, hf, hv⟩)]
  simp only [poseValue, value_flatten]

/-- **C121, inliers.** The same for two problems that differ in Huber wrappers only (see C120), at values where no weighted residual
reaches a threshold. -/
theorem C121_inliers (lib : CholmodChoice) (hlib : ∀ p n, lib.order p n = 1) (hC : GoodClasses C) (fs fs' : List Factor)
    (hp : fs.map plain = fs'.map plain) (hne : fs ≠ []) (hfs : ∀ f ∈ fs, FactorWF F C f) (hfs' : ∀ f ∈ fs', FactorWF F C f)
    (hb : ∀ f ∈ fs ++ fs', NoiseBlind (F f.cls)) (vars vars' : List Var) (val : Var → Value ℝ) (a a' : Assign ℝ)
    (h : Holds C fs vars val a) (h' : Holds C fs' vars' val a') (hin : Inliers F C fs a) (hin' : Inliers F C fs' a') :
    ∃ g g', Graph.make C fs = .ok g ∧ Graph.make C fs' = .ok g' ∧ SameCovariances lib F C g g' a a' vars := by
  have hvo := variablesOf_same hp
  have hne' : fs' ≠ [] := by
    rintro rfl
    exact hne (by simpa using hp)
  have hWF : ∀ f ∈ fs.map plain, FactorWF F C f := by
    intro f hf
    obtain ⟨f0, h0, rfl⟩ := List.mem_map.1 hf
    exact factorWF_plain (hb f0 (by simp [h0])) (hfs f0 h0)
  obtain ⟨w, R, hR⟩ := factor_parts hWF (fun f hf => (holds_plain h).valuesFor hC hf)
  have parts : ∀ {gs : List Factor} {us : List Var} {b : Assign ℝ}, gs.map plain = fs.map plain → (∀ f ∈ gs, FactorWF F C f) →
      (∀ f ∈ gs, NoiseBlind (F f.cls)) → Holds C gs us val b → Inliers F C gs b → ∀ f ∈ gs,
      whitenedAt F val f = .ok (w (plain f)) ∧ (w (plain f)).length = rdim f ∧
      ((F f.cls).jacobians f.self (f.vars.map val)).mapM (fun J => f.noise.whitenJacobian J (w (plain f))) = .ok (R (plain f)) := by
    intro gs us b hgp hgs hgb hh hi f hf
    obtain ⟨k1, k2, k3⟩ := hR (plain f) (hgp ▸ List.mem_map_of_mem hf)
    have k1 : (stripHuber f.noise).whiten ((F (plain f).cls).residual (plain f).self (f.vars.map val)) = .ok (w (plain f)) := k1
    rw [residual_plain (hgb f hf)] at k1
    have hbel := hi f hf _ (mapM_ok fun v hv => hh.values v ((hh.sameVars v).2 ⟨f, hf, hv⟩)) _ k1
    refine ⟨whiten_strip (hgs f hf).noise k1 hbel, by rw [k2, rdim_plain], ?_⟩
    rw [← k3]
    show _ = List.mapM _ ((F (plain f).cls).jacobians (plain f).self (f.vars.map val))
    rw [jacobians_plain (hgb f hf)]
    exact congrArg (fun g => List.mapM g _) (funext fun J => whitenJacobian_strip (hgs f hf).noise hbel)
  refine same_covariances lib hlib hC hne hne' hfs hfs' (fun v => by rw [hvo]) h h'
    (parts rfl hfs (fun f hf => hb f (by simp [hf])) h hin) (parts hp.symm hfs' (fun f hf => hb f (by simp [hf])) h' hin') fun e he => ?_
  have key : ∀ gs : List Factor, (gs.map fun f => vdot
      (facProd C (posIn (Layout.make C (Graph.variablesOf fs) true)) (fun f => R (plain f)) ((grouped (Graph.variablesOf fs)).flatMap e) f)
      (facProd C (posIn (Layout.make C (Graph.variablesOf fs) true)) (fun f => R (plain f)) ((grouped (Graph.variablesOf fs)).flatMap e) f)) =
      (gs.map plain).map fun f => vdot
      (facProd C (posIn (Layout.make C (Graph.variablesOf fs) true)) R ((grouped (Graph.variablesOf fs)).flatMap e) f)
      (facProd C (posIn (Layout.make C (Graph.variablesOf fs) true)) R ((grouped (Graph.variablesOf fs)).flatMap e) f) := by
    intro gs
    rw [List.map_map]
    refine List.map_congr_left fun f _ => ?_
    simp only [Function.comp, facProd, rdim_plain]
    rfl
  unfold seenBy
  rw [hvo, key fs, key fs', hp]

end

/-! ### Example: two poses of the plane -/

namespace PoseEx
open AnchoredEx

/-- The prior in two pieces, at the end. -/
theorem planar_information : SameInformation planar [step, priorA, priorB] := by
  refine C119_trans (C119_merge [prior] [priorA, priorB] [step] (quantity prior) 3 (by simp) (by simp) ?_ ?_) (C119_order ?_)
  · intro f hf
    simp only [List.cons_append, List.nil_append, List.mem_cons, List.not_mem_nil, or_false] at hf
    rcases hf with rfl | rfl | rfl <;> exact ⟨trivial, rfl, rfl⟩
  · funext i j
    simp only [List.map_cons, List.map_nil, List.sum_cons, List.sum_nil, Matrix.add_apply, Matrix.zero_apply, noisePrecision_apply, Fin.sum_univ_three]
    fin_cases i <;> fin_cases j <;> simp [noiseMat, arrMat, prior, priorA, priorB, PriorFactor.make] <;> norm_num
  · exact List.perm_append_comm (l₁ := [priorA, priorB]) (l₂ := [step])

theorem planar_holds (gs : List Factor) (hgs : ∀ v, v ∈ [y, x] ↔ ∃ f ∈ gs, v ∈ f.vars) (pose : Var → List ℝ)
    (hpose : ∀ v ∈ [y, x], (K v.ty).Valid (pose v)) : ∃ a, Holds C gs [y, x] (poseValue K pose) a := by
  have hget : ∀ v ∈ [y, x], (⟨[y, x].map fun v => (v, poseValue K pose v)⟩ : PyDict Var (Value ℝ)).get? v = some (poseValue K pose v) := by
    intro v hv
    simp only [List.mem_cons, List.not_mem_nil, or_false] at hv
    rcases hv with rfl | rfl <;> rfl
  obtain ⟨⟨a, h1, h2, h3, h4, h5⟩, -⟩ := C07_partial_and_defaults C (fun t => lie_wellShaped _) [y, x]
    (by decide) (by decide) ⟨[y, x].map fun v => (v, poseValue K pose v)⟩ (fun v hv z hz => by
      rw [hget v hv] at hz
      obtain rfl := Option.some.inj hz
      exact (isValueOf_lie _).2 ⟨_, rfl, (lieLaws _).len _ (hpose v hv)⟩)
  exact ⟨a, h2, h3, hgs, fun v hv => h4 v hv _ (hget v hv)⟩

/-- The covariances of the poses exist, and they are the same with the prior in one piece, in two pieces, and in a world that was moved. -/
example (lib : CholmodChoice) (hlib : ∀ p n, lib.order p n = 1) : ∃ g g' g'' a a' a'' c c' c'', Graph.make C planar = .ok g ∧
    Graph.make C [step, priorA, priorB] = .ok g' ∧ Graph.make C [prior', step] = .ok g'' ∧
    Holds C planar [x, y] (poseValue K (pose false)) a ∧ Holds C [step, priorA, priorB] [y, x] (poseValue K (pose false)) a' ∧
    Holds C [prior', step] [y, x] (poseValue K fun v => (K v.ty).ops.multiply (motionOf (K v.ty)) (pose false v)) a'' ∧
    SparseCovariance.make lib F C g a = .ok c ∧ SparseCovariance.make lib F C g' a' = .ok c' ∧
    SparseCovariance.make lib F C g'' a'' = .ok c'' ∧ ∃ M, (c.computeMarginal C 100 [y] .empty).1 = .ok M ∧
      (c'.computeMarginal C 100 [y] .empty).1 = .ok M ∧ (c''.computeMarginal C 100 [y] .empty).1 = .ok M := by
  obtain ⟨a, ha⟩ := AnchoredEx.holds
  have hval : ∀ v ∈ [y, x], (K v.ty).Valid (pose false v) := fun v hv => pose_valid false v (by simp at hv ⊢; tauto)
  obtain ⟨a', ha'⟩ := planar_holds [step, priorA, priorB] (fun v => by simp [step, priorA, priorB, PriorFactor.make]; tauto) (pose false) hval
  obtain ⟨a'', ha''⟩ := planar_holds [prior', step] (fun v => by simp [prior', step, PriorFactor.make]; tauto)
    (fun v => (K v.ty).ops.multiply (motionOf (K v.ty)) (pose false v)) (fun v hv => (lieLaws _).mul _ _ (motionOf_valid _) (hval v hv))
  have hwf : ∀ f ∈ fs, FactorWF F C f := fun f hf =>
    (C54_wellformed F C K f _ (AnchoredEx.measures f hf).choose_spec fun v hv => ⟨rfl, noise f hf v hv⟩).1
  have hwf' : ∀ f ∈ [step, priorA, priorB], FactorWF F C f := by
    intro f hf
    simp only [List.mem_cons, List.not_mem_nil, or_false] at hf
    rcases hf with rfl | rfl | rfl
    · exact hwf _ (by simp [fs])
    · exact (C54_wellformed F C K _ _ (Measures.prior 0 x [1, 0, 1, 2] _ rfl ⟨1, 0, 1, 2, rfl, by norm_num⟩) fun v hv => by
        obtain rfl : v = x := by simpa [PriorFactor.make] using hv
        exact ⟨rfl, ⟨rfl, rfl⟩, rfl⟩).1
    · exact (C54_wellformed F C K _ _ (Measures.prior 0 x [1, 0, 1, 2] _ rfl ⟨1, 0, 1, 2, rfl, by norm_num⟩) fun v hv => by
        obtain rfl : v = x := by simpa [PriorFactor.make] using hv
        exact ⟨rfl, rfl, rfl⟩).1
  have hb : ∀ n, NoiseBlind (F n) := by
    intro n
    unfold F
    split
    · exact (C119_library _).1
    · split
      · exact (C119_library _).2
      · exact (C119_library _).2
  obtain ⟨g, hg, hcov, -⟩ := C104_anchored lib F C K (fun _ => rfl) planar (by simp [planar])
    (fun f hf => AnchoredEx.measures f (planar_sub hf)) (fun f hf => AnchoredEx.noise f (planar_sub hf)) _
    (pose false) (fun v hv => pose_valid false v (by simp at hv ⊢; tauto)) a ha
  obtain ⟨c, hc⟩ := hcov fun v hv => by
    have hx : Anchored planar x := .prior (f := prior) (by simp [planar]) rfl
    simp only [List.mem_cons, List.not_mem_nil, or_false] at hv
    rcases hv with rfl | rfl
    · exact hx
    · exact .forward (f := step) (by simp [planar]) rfl hx
  obtain ⟨g1, g', hg1, hg', hS'⟩ := C121_information lib hlib (lie_goodClasses fun _ => rfl) planar _ planar_information (by simp [planar]) (by simp)
    (fun f hf => hwf f (planar_sub hf)) hwf' (fun f _ => hb _) [x, y] [y, x] _ a a' ⟨ha, ha'.assignment, ha'.isGlobal, fun v => by
      rw [ha'.sameVars, planar_information.vars], ha'.values⟩
  obtain ⟨g2, g'', hg2, hg'', hS''⟩ := C121_pose_graphs (F := F) (C := C) (K := K) lib hlib (fun _ => rfl) motionOf motionOf_valid planar _ (by simp [planar])
    (.cons (.prior 0 x [1, 0, 1, 2] _ rfl ⟨1, 0, 1, 2, rfl, by norm_num⟩)
      (.cons (.between 1 x y [0, 1, 1, 0] _ _ rfl ⟨0, 1, 1, 0, rfl, by norm_num⟩ rfl) .nil) : List.Forall₂ (MovedFactor F K motionOf) planar [prior', step])
    (fun f hf => noise f (planar_sub hf)) [x, y] [y, x] (pose false) a a'' (fun v hv => hval v (by simp at hv ⊢; tauto)) ha ha''
  obtain rfl := Except.ok.inj (hg.symm.trans hg1)
  obtain rfl := Except.ok.inj (hg.symm.trans hg2)
  obtain ⟨c', hc'⟩ := hS'.1.1 ⟨c, hc⟩
  obtain ⟨c'', hc''⟩ := hS''.1.1 ⟨c, hc⟩
  have hdim : ∀ {gs : List Factor} {k : Graph}, Graph.make C gs = .ok k → gs ≠ [] → (∀ f ∈ gs, FactorWF F C f) →
      (Graph.variablesOf gs).Perm [x, y] → 2 * k.localLayout.dim ≤ 100 + 1 := by
    intro gs k hk hne hgs hp
    obtain ⟨k1, hk1, hG⟩ := graph_ok (F := F) hgs hne
    obtain rfl := Except.ok.inj (hk.symm.trans hk1)
    rw [hG.localLayout, make_dim C (variablesOf_spec gs).1]
    have : total (fun v : Var => dimOf C true v.ty) (grouped (Graph.variablesOf gs)) = 6 := by
      rw [total_perm ((grouped_perm _).trans hp)]; rfl
    omega
  have same : ∀ {gs : List Factor}, (∀ v, v ∈ [x, y] ↔ ∃ f ∈ gs, v ∈ f.vars) → (Graph.variablesOf gs).Perm [x, y] := fun {gs} h =>
    (List.perm_ext_iff_of_nodup (variablesOf_spec gs).1 (by decide)).2 fun v => by rw [(variablesOf_spec gs).2, h]
  have d1 := hdim hg (by simp [planar]) (fun f hf => hwf f (planar_sub hf)) (same ha.sameVars)
  have d2 := hdim hg' (by simp) hwf' (same fun v => by rw [← ha'.sameVars]; simp; tauto)
  have d3 := hdim hg'' (by simp) (by
    intro f hf
    simp only [List.mem_cons, List.not_mem_nil, or_false] at hf
    rcases hf with rfl | rfl
    · exact (C54_wellformed F C K _ _ (Measures.prior 0 x _ _ rfl ((lieLaws _).mul _ _ (motionOf_valid .se2) ⟨1, 0, 1, 2, rfl, by norm_num⟩)) fun v hv => by
        obtain rfl : v = x := by simpa [prior', PriorFactor.make] using hv
        exact ⟨rfl, ⟨rfl, rfl⟩, rfl⟩).1
    · exact hwf _ (by simp [fs])) (same fun v => by rw [← ha''.sameVars]; simp; tauto)
  obtain ⟨M, m1, m2⟩ := hS'.2 c c' hc hc' [y] (by simp) _ _ .make .make 100 d1 d2
  obtain ⟨M', m3, m4⟩ := hS''.2 c c'' hc hc'' [y] (by simp) _ _ .make .make 100 d1 d3
  obtain rfl := Except.ok.inj (m1.symm.trans m3)
  exact ⟨g, g', g'', a, a', a'', c, c', c'', hg, hg', hg'', ha, ha', ha'', hc, hc', hc'', M, m1, m2, m4⟩

end PoseEx

end Jaxfg.Props
