/-
Comparing the covariance matrices of two graphs through the squares of the products of their whitened Jacobians.
-/
import Verif.Spec.MoreData
import Verif.Lemmas.OrderSim
import Verif.Props.Marginal

namespace Jaxfg.Props
open Matrix hiding vec
open Spec SparseCovariance

/-- Comparing entries of inverses of matrices of different sizes. -/
theorem inverse_le {n n' : Nat} {H : Matrix (Fin n) (Fin n) ℝ} {H' : Matrix (Fin n') (Fin n') ℝ} (hH : H.PosDef) (hH' : H'.PosDef)
    {u : Fin n → ℝ} {u' : Fin n' → ℝ} (h : ∀ y', ∃ y, y ⬝ᵥ H *ᵥ y ≤ y' ⬝ᵥ H' *ᵥ y' ∧ u ⬝ᵥ y = u' ⬝ᵥ y') :
    u' ⬝ᵥ H'⁻¹ *ᵥ u' ≤ u ⬝ᵥ H⁻¹ *ᵥ u := by
  obtain ⟨y, h1, h2⟩ := h (H'⁻¹ *ᵥ u')
  have i1 : IsUnit H.det := hH.det_pos.ne'.isUnit
  have i2 : IsUnit H'.det := hH'.det_pos.ne'.isUnit
  obtain ⟨z, hz⟩ : ∃ z, z = H⁻¹ *ᵥ u := ⟨_, rfl⟩
  have hHz : H *ᵥ z = u := by rw [hz, mulVec_mulVec, mul_nonsing_inv _ i1, one_mulVec]
  rw [mulVec_mulVec, mul_nonsing_inv _ i2, one_mulVec, dotProduct_comm (H'⁻¹ *ᵥ u')] at h1
  have h3 := hH.posSemidef.dotProduct_mulVec_nonneg (y - z)
  simp only [star_trivial, mulVec_sub, hHz, sub_dotProduct, dotProduct_sub] at h3
  have h4 : z ⬝ᵥ H *ᵥ y = u ⬝ᵥ y := by
    have hs : Hᵀ = H := by
      have := hH.isHermitian
      rwa [IsHermitian, conjTranspose_eq_transpose_of_trivial] at this
    rw [dotProduct_mulVec, ← mulVec_transpose, hs, hHz]
  rw [← hz, dotProduct_comm u z]
  rw [h4, dotProduct_comm y u, dotProduct_comm z u] at h3
  rw [dotProduct_comm z u]
  linarith

section
variable {F : Nat → FactorClass} {C : Ty → VarClass ℝ}

/-- Residuals and Jacobians of the factors, chosen once for all graphs with these factors and values. -/
theorem factor_parts {fs : List Factor} (hfs : ∀ f ∈ fs, FactorWF F C f) {val : Var → Value ℝ}
    (hv : ∀ f ∈ fs, ValuesFor C f.vars (f.vars.map val)) :
    ∃ (w : Factor → List ℝ) (R : Factor → List (Arr ℝ)), ∀ f ∈ fs, whitenedAt F val f = .ok (w f) ∧ (w f).length = rdim f ∧
      ((F f.cls).jacobians f.self (f.vars.map val)).mapM (fun J => f.noise.whitenJacobian J (w f)) = .ok (R f) := by
  have : ∀ f, ∃ w R, f ∈ fs → whitenedAt F val f = .ok w ∧ w.length = rdim f ∧
      ((F f.cls).jacobians f.self (f.vars.map val)).mapM (fun J => f.noise.whitenJacobian J w) = .ok R := by
    intro f
    by_cases hf : f ∈ fs
    · obtain ⟨w, h1, h2⟩ := whiten_ok (hfs f hf).noise ((hfs f hf).residual _ (hv f hf))
      obtain ⟨R, h3, -⟩ := whitenedJacobians_ok (hfs f hf) (hv f hf) h2
      exact ⟨w, R, fun _ => ⟨h1, h2, h3⟩⟩
    · exact ⟨[], [], fun h => absurd h hf⟩
  choose w R h using this
  exact ⟨w, R, h⟩

/-- The information matrix of a graph as a quadratic form. -/
theorem graph_quadratic (hC : GoodClasses C) {fs : List Factor} (hfs : ∀ f ∈ fs, FactorWF F C f) (hne : fs ≠ []) {vars : List Var}
    {val : Var → Value ℝ} {a : Assign ℝ} (h : Holds C fs vars val a) {w : Factor → List ℝ} {R : Factor → List (Arr ℝ)}
    (hR : ∀ f ∈ fs, whitenedAt F val f = .ok (w f) ∧ (w f).length = rdim f ∧
      ((F f.cls).jacobians f.self (f.vars.map val)).mapM (fun J => f.noise.whitenJacobian J (w f)) = .ok (R f)) :
    ∃ g, Graph.make C fs = .ok g ∧ g.localLayout = Layout.make C (Graph.variablesOf fs) true ∧ ∃ r A,
      g.computeWhitenedResidualVector F C a = .ok r ∧ g.computeWhitenedResidualJacobian F C a r = .ok A ∧ CooWF A ∧
      A.shape.2 = g.localLayout.dim ∧ ∀ x : List ℝ, x.length = g.localLayout.dim →
        Spec.vec x g.localLayout.dim ⬝ᵥ ((cooMatrix A A.shape.1 g.localLayout.dim)ᵀ * cooMatrix A A.shape.1 g.localLayout.dim) *ᵥ
          Spec.vec x g.localLayout.dim =
        (fs.map fun f => vdot (facProd C (posIn g.localLayout) R x f) (facProd C (posIn g.localLayout) R x f)).sum := by
  obtain ⟨g, hg, hG⟩ := graph_ok (F := F) hfs hne
  refine ⟨g, hg, hG.localLayout, ?_⟩
  have hres := (residual_ok hC hfs hne hG h (fun f hf => (hR f hf).1)).1
  obtain ⟨A, hJ, hA, hshape, -, -, hmul⟩ := jacobian_ok hC hfs hne hG h (fun f hf => (hR f hf).2.1) (fun f hf => (hR f hf).2.2)
  refine ⟨_, A, hres, hJ, hA, by rw [hshape], fun x hx => ?_⟩
  have hn : A.shape.2 = g.localLayout.dim := by rw [hshape]
  generalize g.localLayout.dim = n at hx hn
  subst hn
  have hz := hmul x (by rw [hx, hshape])
  obtain ⟨-, lz, ez⟩ := matmul_vec hA hz
  have hperm : (evalOrder fs).Perm fs := by unfold evalOrder; exact groupedBy_perm kind fs
  have e1 := vdot_eq lz lz
  rw [vdot_flatMap (fun f _ => rfl), (hperm.map _).sum_eq] at e1
  rw [e1, ez, ← mulVec_mulVec, dotProduct_mulVec, vecMul_transpose]

/-- The sum of the squares of the products of the whitened Jacobians `R` of the factors with a direction, which consists of one vector
`e v` per variable. -/
noncomputable def seenBy (C : Ty → VarClass ℝ) (fs : List Factor) (R : Factor → List (Arr ℝ)) (e : Var → List ℝ) : ℝ :=
  (fs.map fun f => vdot (facProd C (posIn (Layout.make C (Graph.variablesOf fs) true)) R ((grouped (Graph.variablesOf fs)).flatMap e) f)
    (facProd C (posIn (Layout.make C (Graph.variablesOf fs) true)) R ((grouped (Graph.variablesOf fs)).flatMap e) f)).sum

/-- A vector of one graph, read by another one whose variables have other names. -/
theorem restrict_vector {C' : Ty → VarClass ℝ} {ρ : Var → Var} {fs fs' : List Factor} (hmem : ∀ v ∈ Graph.variablesOf fs, ρ v ∈ Graph.variablesOf fs')
    (hdim : ∀ v ∈ Graph.variablesOf fs, (C' (ρ v).ty).localDim = (C v.ty).localDim)
    {R R' : Factor → List (Arr ℝ)} (hle : ∀ e : Var → List ℝ, (∀ v ∈ Graph.variablesOf fs', (e v).length = (C' v.ty).localDim) →
      seenBy C fs R (fun v => e (ρ v)) ≤ seenBy C' fs' R' e) {l l' : Layout}
    (hl : l = Layout.make C (Graph.variablesOf fs) true) (hl' : l' = Layout.make C' (Graph.variablesOf fs') true)
    (y : List ℝ) (hy : y.length = l'.dim) :
    ∃ e : Var → List ℝ, Rep C' (Graph.variablesOf fs') true e ⟨y, l'⟩ ∧
      Rep C (Graph.variablesOf fs) true (fun v => e (ρ v)) ⟨(grouped (Graph.variablesOf fs)).flatMap fun v => e (ρ v), l⟩ ∧
      (fs.map fun f => vdot (facProd C (posIn l) R ((grouped (Graph.variablesOf fs)).flatMap fun v => e (ρ v)) f)
        (facProd C (posIn l) R ((grouped (Graph.variablesOf fs)).flatMap fun v => e (ρ v)) f)).sum ≤
      (fs'.map fun f => vdot (facProd C' (posIn l') R' y f) (facProd C' (posIn l') R' y f)).sum := by
  have hvs := variablesOf_spec fs
  have hvs' := variablesOf_spec fs'
  have hy' : IsAssignmentOf C' (Graph.variablesOf fs') ⟨y, l'⟩ := by
    refine ⟨hvs'.1, ?_, hy⟩
    show l' = Layout.make C' _ l'.localFlag
    rw [hl']; rfl
  obtain ⟨e, he⟩ := exists_rep hy'
  have hflag : (⟨y, l'⟩ : Assign ℝ).layout.localFlag = true := by show l'.localFlag = true; rw [hl']; rfl
  rw [hflag] at he
  have hrep : Rep C (Graph.variablesOf fs) true (fun v => e (ρ v)) ⟨(grouped (Graph.variablesOf fs)).flatMap fun v => e (ρ v), l⟩ :=
    ⟨hvs.1, hl, fun v hv => by rw [he.len _ (hmem v hv)]; exact hdim v hv, rfl⟩
  refine ⟨e, he, hrep, ?_⟩
  have hst : y = (grouped (Graph.variablesOf fs')).flatMap e := he.storage
  subst hl hl' hst
  exact hle e fun v hv => he.len v hv

/-- Leaving out factors. -/
theorem seenBy_le {fs more fs' : List Factor} (hp : (fs ++ more).Perm fs') (R : Factor → List (Arr ℝ)) (e : Var → List ℝ)
    (he : ∀ v ∈ Graph.variablesOf fs', (e v).length = (C v.ty).localDim) : seenBy C fs R e ≤ seenBy C fs' R e := by
  have hvs := variablesOf_spec fs
  have hvs' := variablesOf_spec fs'
  have hmem : ∀ v ∈ Graph.variablesOf fs, v ∈ Graph.variablesOf fs' := fun v hv => by
    obtain ⟨f, hf, hfv⟩ := (hvs.2 v).1 hv
    exact (hvs'.2 v).2 ⟨f, hp.mem_iff.1 (List.mem_append_left _ hf), hfv⟩
  have r1 : Rep C (Graph.variablesOf fs) true e ⟨(grouped (Graph.variablesOf fs)).flatMap e, Layout.make C (Graph.variablesOf fs) true⟩ :=
    ⟨hvs.1, rfl, fun v hv => he v (hmem v hv), rfl⟩
  have r2 : Rep C (Graph.variablesOf fs') true e ⟨(grouped (Graph.variablesOf fs')).flatMap e, Layout.make C (Graph.variablesOf fs') true⟩ :=
    ⟨hvs'.1, rfl, fun v hv => he v hv, rfl⟩
  unfold seenBy
  rw [← ((hp.map _).sum_eq), List.map_append, List.sum_append]
  rw [List.map_congr_left fun f hf => by
    have hv1 : ∀ v ∈ f.vars, v ∈ Graph.variablesOf fs := fun v hv => (hvs.2 v).2 ⟨f, hf, hv⟩
    rw [facProd_blocks r1 r2 hv1 (fun v hv => hmem v (hv1 v hv))]]
  refine le_add_of_nonneg_right (List.sum_nonneg fun z hz => ?_)
  obtain ⟨f, -, rfl⟩ := List.mem_map.1 hz
  rw [vdot_eq (n := rdim f) length_facProd length_facProd]
  exact Finset.sum_nonneg fun i _ => mul_self_nonneg _

/-- Square matrices of the same size with entries that do not change when rows and columns are exchanged. -/
structure SymmetricPair (M M' : List (List ℝ)) : Prop where
  length : M.length = M'.length
  rows : ∀ row ∈ M, row.length = M.length
  rows' : ∀ row ∈ M', row.length = M'.length
  symm : ∀ p q, p < M.length → q < M.length → (M.getD p []).getD q 0 = (M.getD q []).getD p 0
  symm' : ∀ p q, p < M'.length → q < M'.length → (M'.getD p []).getD q 0 = (M'.getD q []).getD p 0

/-- If one graph sees at least as much of every direction as another one, its marginal variances are not greater. The
variables of the second graph may have other names. -/
theorem compare_marginals_renamed (lib : CholmodChoice) (hlib : ∀ p n, lib.order p n = 1) {F' : Nat → FactorClass} {C' : Ty → VarClass ℝ} (hC : GoodClasses C) (hC' : GoodClasses C') {ρ : Var → Var}
    {fs fs' : List Factor}
    (hne : fs ≠ []) (hne' : fs' ≠ []) (hfs : ∀ f ∈ fs, FactorWF F C f) (hfs' : ∀ f ∈ fs', FactorWF F' C' f)
    (hmem : ∀ v ∈ Graph.variablesOf fs, ρ v ∈ Graph.variablesOf fs')
    (hdims : ∀ v ∈ Graph.variablesOf fs, (C' (ρ v).ty).localDim = (C v.ty).localDim) {vars vars' : List Var} {val val' : Var → Value ℝ}
    {a a' : Assign ℝ} (h : Holds C fs vars val a) (h' : Holds C' fs' vars' val' a') {w w' : Factor → List ℝ} {R R' : Factor → List (Arr ℝ)}
    (hR : ∀ f ∈ fs, whitenedAt F val f = .ok (w f) ∧ (w f).length = rdim f ∧
      ((F f.cls).jacobians f.self (f.vars.map val)).mapM (fun J => f.noise.whitenJacobian J (w f)) = .ok (R f))
    (hR' : ∀ f ∈ fs', whitenedAt F' val' f = .ok (w' f) ∧ (w' f).length = rdim f ∧
      ((F' f.cls).jacobians f.self (f.vars.map val')).mapM (fun J => f.noise.whitenJacobian J (w' f)) = .ok (R' f))
    (hle : ∀ e : Var → List ℝ, (∀ v ∈ Graph.variablesOf fs', (e v).length = (C' v.ty).localDim) →
      seenBy C fs R (fun v => e (ρ v)) ≤ seenBy C' fs' R' e) :
    ∃ g g', Graph.make C fs = .ok g ∧ Graph.make C' fs' = .ok g' ∧
      ∀ c c', SparseCovariance.make lib F C g a = .ok c → SparseCovariance.make lib F' C' g' a' = .ok c' →
      ∀ us : List Var, (∀ v ∈ us, v ∈ vars) → ∀ cache cache', Reachable c cache → Reachable c' cache' → ∀ depth : Nat,
        2 * g.localLayout.dim ≤ depth + 1 → 2 * g'.localLayout.dim ≤ depth + 1 →
        ∃ M M', (c.computeMarginal C depth us cache).1 = .ok M ∧ (c'.computeMarginal C' depth (us.map ρ) cache').1 = .ok M' ∧
          SymmetricPair M M' ∧ ∀ x, varianceOf M' x ≤ varianceOf M x := by
  obtain ⟨g, hg, hl, r, A, hr, hA, hwf, hdim, hq⟩ := graph_quadratic hC hfs hne h hR
  obtain ⟨g', hg', hl', r', A', hr', hA', hwf', hdim', hq'⟩ := graph_quadratic hC' hfs' hne' h' hR'
  refine ⟨g, g', hg, hg', fun c c' hc hc' us hus cache cache' hca hca' depth hd hd' => ?_⟩
  obtain ⟨σ, hσ, hcov⟩ := covariance_factor lib F C hr hA hwf hdim
  obtain ⟨σ', hσ', hcov'⟩ := covariance_factor lib F' C' hr' hA' hwf' hdim'
  obtain rfl : σ = 1 := by obtain ⟨p, hp⟩ := hσ; rw [hp, hlib]
  obtain rfl : σ' = 1 := by obtain ⟨p, hp⟩ := hσ'; rw [hp, hlib]
  have hpd : ((cooMatrix A A.shape.1 g.localLayout.dim)ᵀ * cooMatrix A A.shape.1 g.localLayout.dim).PosDef := by
    by_contra hn
    have := hcov.2 hn
    rw [hc] at this; cases this
  have hpd' : ((cooMatrix A' A'.shape.1 g'.localLayout.dim)ᵀ * cooMatrix A' A'.shape.1 g'.localLayout.dim).PosDef := by
    by_contra hn
    have := hcov'.2 hn
    rw [hc'] at this; cases this
  obtain ⟨H, hH⟩ : ∃ H, H = (cooMatrix A A.shape.1 g.localLayout.dim)ᵀ * cooMatrix A A.shape.1 g.localLayout.dim := ⟨_, rfl⟩
  obtain ⟨H', hH'⟩ : ∃ H', H' = (cooMatrix A' A'.shape.1 g'.localLayout.dim)ᵀ * cooMatrix A' A'.shape.1 g'.localLayout.dim := ⟨_, rfl⟩
  rw [← hH] at hpd hq hcov
  rw [← hH'] at hpd' hq' hcov'
  obtain ⟨L, l1, l2, l3⟩ := hcov.1 hpd
  obtain ⟨L', l1', l2', l3'⟩ := hcov'.1 hpd'
  obtain rfl : c = _ := Except.ok.inj (hc.symm.trans l1)
  obtain rfl : c' = _ := Except.ok.inj (hc'.symm.trans l1')
  have hvs := variablesOf_spec fs
  have hvs' := variablesOf_spec fs'
  have hus1 : ∀ v ∈ us, v ∈ Graph.variablesOf fs := fun v hv => (hvs.2 v).2 ((h.sameVars v).1 (hus v hv))
  have hus1' : ∀ v ∈ us, ρ v ∈ Graph.variablesOf fs' := fun v hv => hmem v (hus1 v hv)
  obtain ⟨M, m1, m2, m3, m4⟩ := C52_marginal hvs.1 hl l2 hca depth hd us hus1
  obtain ⟨M', m1', m2', m3', m4'⟩ := C52_marginal hvs'.1 hl' l2' hca' depth hd' (us.map ρ) fun u hu => by
    obtain ⟨v, hv, rfl⟩ := List.mem_map.1 hu
    exact hus1' v hv
  obtain ⟨coords, hco⟩ : ∃ coords, coords = us.flatMap fun v => (List.range (C v.ty).localDim).map fun a => (v, a) := ⟨_, rfl⟩
  have hco' : ((us.map ρ).flatMap fun v => (List.range (C' v.ty).localDim).map fun a => (v, a)) = coords.map fun z => (ρ z.1, z.2) := by
    rw [hco, List.flatMap_map, List.map_flatMap]
    refine List.flatMap_congr fun v hv => ?_
    rw [hdims v (hus1 v hv), List.map_map]
    rfl
  rw [← hco] at m2 m4
  rw [hco'] at m2' m3' m4'
  rw [List.length_map] at m2' m3'
  have hcoord : ∀ p (hp : p < coords.length), (coords[p].1 ∈ us ∧ coords[p].2 < (C coords[p].1.ty).localDim) := by
    have hm : ∀ z ∈ coords, z.1 ∈ us ∧ z.2 < (C z.1.ty).localDim := by
      intro z hz
      rw [hco] at hz
      simp only [List.mem_flatMap, List.mem_map, List.mem_range] at hz
      obtain ⟨v, hv, k, hk, rfl⟩ := hz
      exact ⟨hv, hk⟩
    exact fun p hp => hm _ (List.getElem_mem hp)
  -- where the coordinates are
  have hpos : ∀ p (hp : p < coords.length), ∃ s : Fin g.localLayout.dim, ∃ t, g.localLayout.indexFromVar.get? coords[p].1 = some t ∧
      s.val = t + coords[p].2 := by
    intro p hp
    obtain ⟨s, -, hs, -, e1, -, -⟩ := m4 p p _ _ _ _ (List.getElem?_eq_getElem hp) (List.getElem?_eq_getElem hp)
    exact ⟨⟨_, hs⟩, s, e1, rfl⟩
  have hget : ∀ p (hp : p < coords.length), (coords.map fun z => (ρ z.1, z.2))[p]? = some (ρ coords[p].1, coords[p].2) := fun p hp => by
    rw [List.getElem?_map, List.getElem?_eq_getElem hp]
    rfl
  have hpos' : ∀ p (hp : p < coords.length), ∃ s : Fin g'.localLayout.dim, ∃ t, g'.localLayout.indexFromVar.get? (ρ coords[p].1) = some t ∧
      s.val = t + coords[p].2 := by
    intro p hp
    obtain ⟨s, -, hs, -, e1, -, -⟩ := m4' p p _ _ _ _ (hget p hp) (hget p hp)
    exact ⟨⟨_, hs⟩, s, e1, rfl⟩
  choose ι hι using fun p : Fin coords.length => hpos p p.2
  choose ι' hι' using fun p : Fin coords.length => hpos' p p.2
  have ent : ∀ p q : Fin coords.length, (M.getD p []).getD q 0 = H⁻¹ (ι p) (ι q) := by
    intro p q
    obtain ⟨s, t, hs, ht, e1, e2, e3⟩ := m4 p q _ _ _ _ (List.getElem?_eq_getElem p.2) (List.getElem?_eq_getElem q.2)
    obtain ⟨s', k1, k2⟩ := hι p
    obtain ⟨t', k3, k4⟩ := hι q
    obtain rfl : s' = s := Option.some.inj (k1.symm.trans e1)
    obtain rfl : t' = t := Option.some.inj (k3.symm.trans e2)
    rw [e3, l3]
    have a1 : ι p = ⟨s' + coords[p.val].2, hs⟩ := Fin.ext k2
    have a2 : ι q = ⟨t' + coords[q.val].2, ht⟩ := Fin.ext k4
    rw [a1, a2]
    rfl
  have ent' : ∀ p q : Fin coords.length, (M'.getD p []).getD q 0 = H'⁻¹ (ι' p) (ι' q) := by
    intro p q
    obtain ⟨s, t, hs, ht, e1, e2, e3⟩ := m4' p q _ _ _ _ (hget p p.2) (hget q q.2)
    obtain ⟨s', k1, k2⟩ := hι' p
    obtain ⟨t', k3, k4⟩ := hι' q
    obtain rfl : s' = s := Option.some.inj (k1.symm.trans e1)
    obtain rfl : t' = t := Option.some.inj (k3.symm.trans e2)
    rw [e3, l3']
    have a1 : ι' p = ⟨s' + coords[p.val].2, hs⟩ := Fin.ext k2
    have a2 : ι' q = ⟨t' + coords[q.val].2, ht⟩ := Fin.ext k4
    rw [a1, a2]
    rfl
  -- the variance as a quadratic form
  have form : ∀ (x : Nat → ℝ) {n : Nat} (K : Matrix (Fin n) (Fin n) ℝ) (κ : Fin coords.length → Fin n) (N : List (List ℝ)), N.length = coords.length →
      (∀ p q : Fin coords.length, (N.getD p []).getD q 0 = K (κ p) (κ q)) →
      varianceOf N x = (∑ p : Fin coords.length, Pi.single (κ p) (x p)) ⬝ᵥ K *ᵥ (∑ p : Fin coords.length, Pi.single (κ p) (x p)) := by
    intro x n K κ N hN he
    unfold varianceOf
    rw [hN, Finset.sum_range, sum_dotProduct]
    refine Finset.sum_congr rfl fun p _ => ?_
    rw [Finset.sum_range, mulVec_sum, dotProduct_sum]
    refine Finset.sum_congr rfl fun q _ => ?_
    rw [he, single_dotProduct, mulVec_single]
    simp only [Pi.smul_apply, col_apply, MulOpposite.smul_eq_mul_unop, MulOpposite.unop_op]
    ring
  have symm : ∀ {n : Nat} {K : Matrix (Fin n) (Fin n) ℝ}, K.PosDef → ∀ i j, K⁻¹ i j = K⁻¹ j i := fun hK i j => by
    have := hK.inv.isHermitian.apply i j
    rwa [star_trivial, eq_comm] at this
  refine ⟨M, M', m1, m1', ⟨m2.trans m2'.symm, fun row hr => ?_, fun row hr => ?_, fun p q hp hq => ?_, fun p q hp hq => ?_⟩, fun x => ?_⟩
  · rw [m3 row hr, ← hco, m2]
  · rw [m3' row hr, m2']
  · rw [m2] at hp hq
    exact (ent ⟨p, hp⟩ ⟨q, hq⟩).trans ((symm hpd _ _).trans (ent ⟨q, hq⟩ ⟨p, hp⟩).symm)
  · rw [m2'] at hp hq
    exact (ent' ⟨p, hp⟩ ⟨q, hq⟩).trans ((symm hpd' _ _).trans (ent' ⟨q, hq⟩ ⟨p, hp⟩).symm)
  rw [form x H'⁻¹ ι' M' m2' ent', form x H⁻¹ ι M m2 ent]
  refine inverse_le hpd hpd' fun y' => ?_
  obtain ⟨e, he, hrep, hle⟩ := restrict_vector hmem hdims hle hl hl' (ofVec y') (length_ofVec _)
  have hxl : ((grouped (Graph.variablesOf fs)).flatMap fun v => e (ρ v)).length = g.localLayout.dim := hrep.storage_length'
  refine ⟨Spec.vec ((grouped (Graph.variablesOf fs)).flatMap fun v => e (ρ v)) g.localLayout.dim, ?_, ?_⟩
  · have hyv : y' = Spec.vec (ofVec y') g'.localLayout.dim := (vec_ofVec _).symm
    rw [hq _ hxl]
    rw [show y' ⬝ᵥ H' *ᵥ y' = Spec.vec (ofVec y') g'.localLayout.dim ⬝ᵥ H' *ᵥ Spec.vec (ofVec y') g'.localLayout.dim by rw [← hyv]]
    rw [hq' _ (length_ofVec _)]
    exact hle
  · rw [sum_dotProduct, sum_dotProduct]
    refine Finset.sum_congr rfl fun p _ => ?_
    rw [single_dotProduct, single_dotProduct]
    congr 1
    obtain ⟨t, k1, k2⟩ := hι p
    obtain ⟨t', k1', k2'⟩ := hι' p
    obtain ⟨c1, c2⟩ := hcoord p p.2
    obtain ⟨i, i1, -, i3⟩ := hrep.index (hus1 _ c1)
    obtain ⟨i', i1', -, i3'⟩ := he.index (hus1' _ c1)
    have j1 : i = t := Option.some.inj (i1.symm.trans k1)
    have j2 : i' = t' := Option.some.inj (i1'.symm.trans k1')
    subst j1 j2
    have key : ∀ (l : List ℝ) (i c d : Nat), c < d → l.getD (i + c) 0 = (slice l i d).getD c 0 := by
      intro l i c d hcd
      unfold slice
      simp only [List.getD_eq_getElem?_getD]
      rw [List.getElem?_take_of_lt hcd, List.getElem?_drop]
    have b1 : Spec.vec ((grouped (Graph.variablesOf fs)).flatMap fun v => e (ρ v)) g.localLayout.dim (ι p) = (e (ρ coords[p.val].1)).getD coords[p.val].2 0 := by
      show ((grouped (Graph.variablesOf fs)).flatMap fun v => e (ρ v)).getD (ι p).val 0 = _
      rw [k2, key _ _ _ _ (show _ < dimOf C true coords[p.val].1.ty from c2)]
      exact congrArg (fun l => List.getD l _ 0) i3
    have b2 : y' (ι' p) = (e (ρ coords[p.val].1)).getD coords[p.val].2 0 := by
      have : y' (ι' p) = Spec.vec (ofVec y') g'.localLayout.dim (ι' p) := by rw [vec_ofVec]
      rw [this]
      show (ofVec y').getD (ι' p).val 0 = _
      rw [k2', key _ _ _ _ (show _ < dimOf C' true (ρ coords[p.val].1).ty from (hdims _ (hus1 _ c1)).symm ▸ c2)]
      exact congrArg (fun l => List.getD l _ 0) i3'
    rw [b1, b2]

/-- If one graph sees at least as much of every direction as another one, its marginal variances are not greater. -/
theorem compare_marginals (lib : CholmodChoice) (hlib : ∀ p n, lib.order p n = 1) (hC : GoodClasses C) {fs fs' : List Factor}
    (hne : fs ≠ []) (hne' : fs' ≠ []) (hfs : ∀ f ∈ fs, FactorWF F C f) (hfs' : ∀ f ∈ fs', FactorWF F C f)
    (hmem : ∀ v ∈ Graph.variablesOf fs, v ∈ Graph.variablesOf fs') {vars vars' : List Var} {val val' : Var → Value ℝ}
    {a a' : Assign ℝ} (h : Holds C fs vars val a) (h' : Holds C fs' vars' val' a') {w w' : Factor → List ℝ} {R R' : Factor → List (Arr ℝ)}
    (hR : ∀ f ∈ fs, whitenedAt F val f = .ok (w f) ∧ (w f).length = rdim f ∧
      ((F f.cls).jacobians f.self (f.vars.map val)).mapM (fun J => f.noise.whitenJacobian J (w f)) = .ok (R f))
    (hR' : ∀ f ∈ fs', whitenedAt F val' f = .ok (w' f) ∧ (w' f).length = rdim f ∧
      ((F f.cls).jacobians f.self (f.vars.map val')).mapM (fun J => f.noise.whitenJacobian J (w' f)) = .ok (R' f))
    (hle : ∀ e : Var → List ℝ, (∀ v ∈ Graph.variablesOf fs', (e v).length = (C v.ty).localDim) → seenBy C fs R e ≤ seenBy C fs' R' e) :
    ∃ g g', Graph.make C fs = .ok g ∧ Graph.make C fs' = .ok g' ∧
      ∀ c c', SparseCovariance.make lib F C g a = .ok c → SparseCovariance.make lib F C g' a' = .ok c' →
      ∀ us : List Var, (∀ v ∈ us, v ∈ vars) → ∀ cache cache', Reachable c cache → Reachable c' cache' → ∀ depth : Nat,
        2 * g.localLayout.dim ≤ depth + 1 → 2 * g'.localLayout.dim ≤ depth + 1 →
        ∃ M M', (c.computeMarginal C depth us cache).1 = .ok M ∧ (c'.computeMarginal C depth us cache').1 = .ok M' ∧
          SymmetricPair M M' ∧ ∀ x, varianceOf M' x ≤ varianceOf M x := by
  obtain ⟨g, g', hg, hg', k⟩ := compare_marginals_renamed lib hlib hC hC hne hne' hfs hfs' (ρ := fun v => v) hmem (fun _ _ => rfl) h h' hR hR' hle
  refine ⟨g, g', hg, hg', fun c c' hc hc' us hus cache cache' hca hca' depth hd hd' => ?_⟩
  obtain ⟨M, M', k1, k2, k3⟩ := k c c' hc hc' us hus cache cache' hca hca' depth hd hd'
  exact ⟨M, M', k1, by rwa [List.map_id'] at k2, k3⟩

/-- If one graph sees at least as much of every direction as another one, with the same variables, and the covariance matrix of the
latter exists, so does that of the former. The variables of the second graph may have other names. -/
theorem compare_exists_renamed (lib : CholmodChoice) {F' : Nat → FactorClass} {C' : Ty → VarClass ℝ} (hC : GoodClasses C) (hC' : GoodClasses C') {ρ : Var → Var}
    {fs fs' : List Factor}
    (hne : fs ≠ []) (hne' : fs' ≠ []) (hfs : ∀ f ∈ fs, FactorWF F C f) (hfs' : ∀ f ∈ fs', FactorWF F' C' f)
    (hmem : ∀ v ∈ Graph.variablesOf fs, ρ v ∈ Graph.variablesOf fs')
    (hdims : ∀ v ∈ Graph.variablesOf fs, (C' (ρ v).ty).localDim = (C v.ty).localDim) (hmem' : ∀ u ∈ Graph.variablesOf fs', ∃ v ∈ Graph.variablesOf fs, ρ v = u)
    {vars vars' : List Var} {val val' : Var → Value ℝ}
    {a a' : Assign ℝ} (h : Holds C fs vars val a) (h' : Holds C' fs' vars' val' a') {w w' : Factor → List ℝ} {R R' : Factor → List (Arr ℝ)}
    (hR : ∀ f ∈ fs, whitenedAt F val f = .ok (w f) ∧ (w f).length = rdim f ∧
      ((F f.cls).jacobians f.self (f.vars.map val)).mapM (fun J => f.noise.whitenJacobian J (w f)) = .ok (R f))
    (hR' : ∀ f ∈ fs', whitenedAt F' val' f = .ok (w' f) ∧ (w' f).length = rdim f ∧
      ((F' f.cls).jacobians f.self (f.vars.map val')).mapM (fun J => f.noise.whitenJacobian J (w' f)) = .ok (R' f))
    (hle : ∀ e : Var → List ℝ, (∀ v ∈ Graph.variablesOf fs', (e v).length = (C' v.ty).localDim) →
      seenBy C fs R (fun v => e (ρ v)) ≤ seenBy C' fs' R' e) :
    ∃ g g', Graph.make C fs = .ok g ∧ Graph.make C' fs' = .ok g' ∧
      ∀ c, SparseCovariance.make lib F C g a = .ok c → ∃ c', SparseCovariance.make lib F' C' g' a' = .ok c' := by
  obtain ⟨g, hg, hl, r, A, hr, hA, hwf, hdim, hq⟩ := graph_quadratic hC hfs hne h hR
  obtain ⟨g', hg', hl', r', A', hr', hA', hwf', hdim', hq'⟩ := graph_quadratic hC' hfs' hne' h' hR'
  refine ⟨g, g', hg, hg', fun c hc => ?_⟩
  obtain ⟨σ, -, hcov⟩ := covariance_factor lib F C hr hA hwf hdim
  obtain ⟨σ', -, hcov'⟩ := covariance_factor lib F' C' hr' hA' hwf' hdim'
  have hpd : ((cooMatrix A A.shape.1 g.localLayout.dim)ᵀ * cooMatrix A A.shape.1 g.localLayout.dim).PosDef := by
    by_contra hn
    have := hcov.2 hn
    rw [hc] at this; cases this
  have hpd' : ((cooMatrix A' A'.shape.1 g'.localLayout.dim)ᵀ * cooMatrix A' A'.shape.1 g'.localLayout.dim).PosDef := by
    refine PosDef.of_dotProduct_mulVec_pos (by rw [IsHermitian, conjTranspose_eq_transpose_of_trivial, transpose_mul, transpose_transpose]) fun y hy => ?_
    rw [star_trivial]
    obtain ⟨e, he, hrep, hle⟩ := restrict_vector hmem hdims hle hl hl' (ofVec y) (length_ofVec _)
    have hxl : ((grouped (Graph.variablesOf fs)).flatMap fun v => e (ρ v)).length = g.localLayout.dim := hrep.storage_length'
    rw [← hq _ hxl, ← hq' _ (length_ofVec _), vec_ofVec] at hle
    refine lt_of_lt_of_le ?_ hle
    have hx : Spec.vec ((grouped (Graph.variablesOf fs)).flatMap fun v => e (ρ v)) g.localLayout.dim ≠ 0 := by
      intro h0
      apply hy
      have hz : ∀ z ∈ (grouped (Graph.variablesOf fs)).flatMap fun v => e (ρ v), z = 0 := by
        intro z hz
        obtain ⟨i, hi, rfl⟩ := List.getElem_of_mem hz
        have := congrFun h0 ⟨i, by rw [← hxl]; exact hi⟩
        have h2 : ((grouped (Graph.variablesOf fs)).flatMap fun v => e (ρ v)).getD i 0 = 0 := this
        rwa [List.getD_eq_getElem?_getD, List.getElem?_eq_getElem hi] at h2
      have hst : ofVec y = (grouped (Graph.variablesOf fs')).flatMap e := he.storage
      have hz' : ∀ z ∈ ofVec y, z = 0 := by
        intro z hz1
        rw [hst] at hz1
        obtain ⟨v, hv, hzv⟩ := List.mem_flatMap.1 hz1
        obtain ⟨u, hu, rfl⟩ := hmem' v (mem_grouped.1 hv)
        exact hz z (List.mem_flatMap.2 ⟨u, mem_grouped.2 hu, hzv⟩)
      funext i
      have := hz' (y i) (by unfold ofVec; exact List.mem_ofFn.2 ⟨i, rfl⟩)
      exact this
    have := hpd.dotProduct_mulVec_pos hx
    rwa [star_trivial] at this
  obtain ⟨L', l1', -, -⟩ := hcov'.1 hpd'
  exact ⟨_, l1'⟩


/-- If one graph sees at least as much of every direction as another one, with the same variables, and the covariance matrix of the
latter exists, so does that of the former. -/
theorem compare_exists (lib : CholmodChoice) (hC : GoodClasses C) {fs fs' : List Factor}
    (hne : fs ≠ []) (hne' : fs' ≠ []) (hfs : ∀ f ∈ fs, FactorWF F C f) (hfs' : ∀ f ∈ fs', FactorWF F C f)
    (hmem : ∀ v ∈ Graph.variablesOf fs, v ∈ Graph.variablesOf fs') (hmem' : ∀ v ∈ Graph.variablesOf fs', v ∈ Graph.variablesOf fs)
    {vars vars' : List Var} {val val' : Var → Value ℝ}
    {a a' : Assign ℝ} (h : Holds C fs vars val a) (h' : Holds C fs' vars' val' a') {w w' : Factor → List ℝ} {R R' : Factor → List (Arr ℝ)}
    (hR : ∀ f ∈ fs, whitenedAt F val f = .ok (w f) ∧ (w f).length = rdim f ∧
      ((F f.cls).jacobians f.self (f.vars.map val)).mapM (fun J => f.noise.whitenJacobian J (w f)) = .ok (R f))
    (hR' : ∀ f ∈ fs', whitenedAt F val' f = .ok (w' f) ∧ (w' f).length = rdim f ∧
      ((F f.cls).jacobians f.self (f.vars.map val')).mapM (fun J => f.noise.whitenJacobian J (w' f)) = .ok (R' f))
    (hle : ∀ e : Var → List ℝ, (∀ v ∈ Graph.variablesOf fs', (e v).length = (C v.ty).localDim) → seenBy C fs R e ≤ seenBy C fs' R' e) :
    ∃ g g', Graph.make C fs = .ok g ∧ Graph.make C fs' = .ok g' ∧
      ∀ c, SparseCovariance.make lib F C g a = .ok c → ∃ c', SparseCovariance.make lib F C g' a' = .ok c' :=
  compare_exists_renamed lib hC hC hne hne' hfs hfs' (ρ := fun v => v) hmem (fun _ _ => rfl) (fun v hv => ⟨v, hmem' v hv, rfl⟩) h h' hR hR' hle

end

end Jaxfg.Props
