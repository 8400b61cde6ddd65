/-
Property C127: Gauss-Newton near an exact fit of a pose graph (jaxfg/geometry/_factors.py, jaxfg/solvers/_gauss_newton_solver.py).
-/
import Verif.Lemmas.LieCompose
import Verif.Lemmas.NewtonStep
import Verif.Props.JacobianNear
import Verif.Props.GeometryTotal
import Verif.Props.LocalDamped

namespace Jaxfg.Props
open Spec Filter Topology LieGroup
open Ext (fin)
open Matrix hiding vec

section
variable {F : Nat → FactorClass} {C : Ty → VarClass ℝ} {K : Ty → LieType}

/-! ### Coordinates of deltas -/

/-- The delta of one variable, as a linear function of the delta of the graph. -/
noncomputable def blockL (C : Ty → VarClass ℝ) (l : Layout) (n : Nat) (v : Var) : (Fin n → ℝ) →L[ℝ] (Fin (C v.ty).localDim → ℝ) :=
  ContinuousLinearMap.pi fun j => windowL n ((l.indexFromVar.get? v).getD 0) j

theorem block_blockL {fs : List Factor} {g : Graph} (hG : GraphOf F C fs g) {v : Var} (hv : v ∈ Graph.variablesOf fs)
    (d : Fin g.localLayout.dim → ℝ) :
    block C ⟨List.ofFn d, g.localLayout⟩ v = List.ofFn (blockL C g.localLayout g.localLayout.dim v d) := by
  obtain ⟨f, hf, hvf⟩ := ((variablesOf_spec fs).2 v).1 hv
  obtain ⟨i, rfl⟩ := List.mem_iff_get.1 hvf
  exact block_deltas hG hf d i

theorem rep_delta {fs : List Factor} {g : Graph} (hG : GraphOf F C fs g) (d : Fin g.localLayout.dim → ℝ) :
    Rep C (Graph.variablesOf fs) true (block C ⟨List.ofFn d, g.localLayout⟩) ⟨List.ofFn d, g.localLayout⟩ := by
  have hs := variablesOf_spec fs
  have hδ : IsAssignmentOf C (Graph.variablesOf fs) ⟨List.ofFn d, g.localLayout⟩ := by
    refine ⟨hs.1, ?_, by simp⟩
    simp only [hG.localLayout, make_localFlag]
  obtain ⟨q, hq⟩ := exists_rep hδ
  have e : (⟨List.ofFn d, g.localLayout⟩ : Assign ℝ).layout.localFlag = true := by simp only [hG.localLayout, make_localFlag]
  rw [e] at hq
  exact hq.congr fun v hv => (hq.block_eq hv).symm

/-- Every coordinate of a delta belongs to a variable. -/
theorem coordinate {fs : List Factor} {g : Graph} (hG : GraphOf F C fs g) (i : Fin g.localLayout.dim) :
    ∃ v ∈ Graph.variablesOf fs, ∃ j : Fin (C v.ty).localDim, ∀ (f : Var → List ℝ) (D : List ℝ),
      Rep C (Graph.variablesOf fs) true f ⟨D, g.localLayout⟩ → D.getD i 0 = (f v).getD j 0 := by
  have hn := (variablesOf_spec fs).1
  have hi : i.1 < total (fun v => dimOf C true v.ty) (grouped (Graph.variablesOf fs)) := by
    have e : g.localLayout.dim = total (fun v => dimOf C true v.ty) (grouped (Graph.variablesOf fs)) := by
      rw [hG.localLayout, make_dim C hn]
    exact e ▸ i.2
  obtain ⟨pre, v, post, j, he, hj, hk⟩ := exists_split_total _ _ _ hi
  have hv : v ∈ Graph.variablesOf fs := mem_grouped.1 (by rw [he]; simp)
  refine ⟨v, hv, ⟨j, hj⟩, fun f D hf => ?_⟩
  have hst : D = (grouped (Graph.variablesOf fs)).flatMap f := hf.storage
  have hpre : ∀ u ∈ pre, (f u).length = dimOf C true u.ty := fun u hu => hf.len u (mem_grouped.1 (by rw [he]; simp [hu]))
  rw [hst, he, List.flatMap_append, List.flatMap_cons, hk,
    List.getD_append_right _ _ _ _ (by rw [length_flatMap_blocks hpre]; omega), length_flatMap_blocks hpre, Nat.add_sub_cancel_left,
    List.getD_append _ _ _ _ (by rw [hf.len v hv]; exact hj)]

theorem blockL_norm (l : Layout) {n : Nat} (v : Var) (d : Fin n → ℝ) : ‖blockL C l n v d‖ ≤ ‖d‖ := by
  rw [pi_norm_le_iff_of_nonneg (norm_nonneg d)]
  intro j
  show ‖windowL n _ j d‖ ≤ _
  unfold windowL
  split
  · exact norm_le_pi_norm d _
  · simp

/-- Assignments with the same layout and the same values are the same. -/
theorem holds_ext (hC : GoodClasses C) {fs : List Factor} {vars : List Var} {val val' : Var → Value ℝ} {a b : Assign ℝ}
    (ha : Holds C fs vars val a) (hb : Holds C fs vars val' b) (hl : a.layout = b.layout) (hv : ∀ v ∈ vars, val v = val' v) : a = b := by
  obtain ⟨p, hp⟩ := exists_rep ha.assignment
  obtain ⟨q, hq⟩ := exists_rep hb.assignment
  rw [ha.isGlobal] at hp
  rw [hb.isGlobal] at hq
  have hpq : ∀ v ∈ vars, p v = q v := by
    intro v hm
    have h1 := ha.values v hm
    have h2 := hb.values v hm
    rw [hp.getValue_ok hm] at h1
    rw [hq.getValue_ok hm, ← hv v hm] at h2
    have h3 := congrArg Value.flatten ((Except.ok.inj h1).trans (Except.ok.inj h2).symm)
    rwa [flatten_unravel (hC v.ty).1 (hp.len v hm), flatten_unravel (hC v.ty).1 (hq.len v hm)] at h3
  have hs : a.storage = b.storage := by
    rw [hp.storage, hq.storage]
    exact List.flatMap_congr fun v hm => hpq v (mem_grouped.1 hm)
  cases a
  cases b
  simp_all

/-! ### Two steps -/

/-- Retracting by two small deltas, one after the other, is retracting by about their sum. -/
theorem two_steps (hC : ∀ t, C t = (K t).ops.varClass) {fs : List Factor} {g : Graph} (hG : GraphOf F C fs g) {vars : List Var}
    {pose : Var → List ℝ} (hpose : ∀ v ∈ vars, (K v.ty).Valid (pose v)) {a : Assign ℝ} (h : Holds C fs vars (poseValue K pose) a)
    (hlay : a.layout = g.layout) (θ : ℝ) (hθ : 0 < θ) :
    ∀ᶠ p : (Fin g.localLayout.dim → ℝ) × (Fin g.localLayout.dim → ℝ) in 𝓝 0, ∃ d' : Fin g.localLayout.dim → ℝ,
      (∀ b, a.manifoldRetract C ⟨List.ofFn p.1, g.localLayout⟩ = .ok b →
        b.manifoldRetract C ⟨List.ofFn p.2, g.localLayout⟩ = a.manifoldRetract C ⟨List.ofFn d', g.localLayout⟩) ∧
      eucl (d' - (p.1 + p.2)) ≤ θ * (eucl p.1 + eucl p.2) := by
  have hGC := lie_goodClasses hC
  obtain rfl : C = fun t => (K t).ops.varClass := funext hC
  obtain ⟨n, hn⟩ : ∃ n, n = g.localLayout.dim := ⟨_, rfl⟩
  have hθ' : 0 < θ / (√g.localLayout.dim + 1) := by positivity
  have hvars : ∀ v, v ∈ Graph.variablesOf fs → v ∈ vars := fun v hv =>
    (h.sameVars v).2 (((variablesOf_spec fs).2 v).1 hv)
  have hone : ∀ v ∈ (Graph.variablesOf fs).toFinset, ∀ᶠ p : (Fin g.localLayout.dim → ℝ) × (Fin g.localLayout.dim → ℝ) in 𝓝 0,
      (K v.ty).ops.exp (composed (K v.ty) (block (fun t => (K t).ops.varClass) ⟨List.ofFn p.1, g.localLayout⟩ v)
        (block (fun t => (K t).ops.varClass) ⟨List.ofFn p.2, g.localLayout⟩ v)) =
      (K v.ty).ops.multiply ((K v.ty).ops.exp (block (fun t => (K t).ops.varClass) ⟨List.ofFn p.1, g.localLayout⟩ v))
        ((K v.ty).ops.exp (block (fun t => (K t).ops.varClass) ⟨List.ofFn p.2, g.localLayout⟩ v)) ∧
      ∀ j : Fin (K v.ty).ops.tangentDim,
        |(composed (K v.ty) (block (fun t => (K t).ops.varClass) ⟨List.ofFn p.1, g.localLayout⟩ v)
          (block (fun t => (K t).ops.varClass) ⟨List.ofFn p.2, g.localLayout⟩ v)).getD j 0 -
          ((block (fun t => (K t).ops.varClass) ⟨List.ofFn p.1, g.localLayout⟩ v).getD j 0 +
            (block (fun t => (K t).ops.varClass) ⟨List.ofFn p.2, g.localLayout⟩ v).getD j 0)| ≤ θ / (√g.localLayout.dim + 1) * ‖p‖ := by
    intro v hv
    have hv' : v ∈ Graph.variablesOf fs := List.mem_toFinset.1 hv
    obtain ⟨B, hB⟩ : ∃ B : (Fin g.localLayout.dim → ℝ) →L[ℝ] (Fin (K v.ty).ops.tangentDim → ℝ),
      B = blockL (fun t => (K t).ops.varClass) g.localLayout g.localLayout.dim v := ⟨_, rfl⟩
    have hblock : ∀ d, block (fun t => (K t).ops.varClass) ⟨List.ofFn d, g.localLayout⟩ v = List.ofFn (B d) := by
      intro d
      rw [hB]
      exact block_blockL hG hv' d
    have hBn : ∀ d, ‖B d‖ ≤ ‖d‖ := by
      intro d
      rw [hB]
      exact blockL_norm _ v d
    have ht : Tendsto (fun p : (Fin g.localLayout.dim → ℝ) × (Fin g.localLayout.dim → ℝ) => (B p.1, B p.2)) (𝓝 0) (𝓝 0) := by
      have : Continuous fun p : (Fin g.localLayout.dim → ℝ) × (Fin g.localLayout.dim → ℝ) => (B p.1, B p.2) := by fun_prop
      have h2 := this.tendsto 0
      simpa [Prod.zero_eq_mk] using h2
    filter_upwards [ht.eventually (exp_composed (K v.ty)), ht.eventually ((composed_deriv (K v.ty)).isLittleO.def hθ')] with p h1 h2
    rw [hblock, hblock]
    refine ⟨h1, fun j => ?_⟩
    have hz : Spec.vec (composed (K v.ty) (List.ofFn (0 : (Fin (K v.ty).ops.tangentDim → ℝ) × (Fin (K v.ty).ops.tangentDim → ℝ)).1)
        (List.ofFn (0 : (Fin (K v.ty).ops.tangentDim → ℝ) × (Fin (K v.ty).ops.tangentDim → ℝ)).2)) (K v.ty).ops.tangentDim = 0 := by
      have L := lieLaws (K v.ty)
      rw [Prod.fst_zero, Prod.snd_zero, composed, exp_ofFn_zero, L.one_mul _ L.one, log_one]
      funext i
      simp [Spec.vec]
    rw [hz, sub_zero, sub_zero] at h2
    have h3 := (norm_le_pi_norm _ j).trans h2
    rw [Real.norm_eq_abs] at h3
    have e : ∀ w : Fin (K v.ty).ops.tangentDim → ℝ, (List.ofFn w).getD j 0 = w j := by
      intro w
      rw [List.getD_eq_getElem _ _ (by simp), List.getElem_ofFn]
    rw [e, e]
    refine h3.trans (mul_le_mul_of_nonneg_left ?_ hθ'.le)
    rw [Prod.norm_def, Prod.norm_def]
    exact max_le_max (hBn _) (hBn _)
  filter_upwards [(Filter.eventually_all_finset _).2 hone] with p hp
  obtain ⟨f, hf⟩ : ∃ f : Var → List ℝ, f = fun v => composed (K v.ty) (block (fun t => (K t).ops.varClass) ⟨List.ofFn p.1, g.localLayout⟩ v)
    (block (fun t => (K t).ops.varClass) ⟨List.ofFn p.2, g.localLayout⟩ v) := ⟨_, rfl⟩
  have hs := variablesOf_spec fs
  have hrep : Rep (fun t => (K t).ops.varClass) (Graph.variablesOf fs) true f
      ⟨(grouped (Graph.variablesOf fs)).flatMap f, g.localLayout⟩ :=
    ⟨hs.1, hG.localLayout, fun v _ => by rw [hf]; exact (lieLaws (K v.ty)).log_len _, rfl⟩
  have hlen : ((grouped (Graph.variablesOf fs)).flatMap f).length = g.localLayout.dim := hrep.storage_length'
  obtain ⟨d', hd'⟩ : ∃ d' : Fin g.localLayout.dim → ℝ, List.ofFn d' = (grouped (Graph.variablesOf fs)).flatMap f := by
    refine ⟨fun i => ((grouped (Graph.variablesOf fs)).flatMap f)[i.1]'(by rw [hlen]; exact i.2), ?_⟩
    apply List.ext_getElem
    · simp [hlen]
    · intro i _ _; simp
  rw [← hd'] at hrep
  refine ⟨d', fun b hb => ?_, ?_⟩
  · obtain ⟨b', h1, h2, h3⟩ := holds_retract hGC hG h hlay (d := List.ofFn p.1) (by simp)
    rw [hb] at h1
    cases h1
    obtain ⟨b₂, k1, k2, k3⟩ := holds_retract hGC hG h3 h2 (d := List.ofFn p.2) (by simp)
    obtain ⟨b₃, l1, l2, l3⟩ := holds_retract hGC hG h hlay (d := List.ofFn d') (by simp)
    rw [k1, l1]
    refine congrArg Except.ok (holds_ext hGC k3 l3 (k2.trans l2.symm) fun v hv => ?_)
    have hx := (hp v (List.mem_toFinset.2 hv)).1
    have hT := hpose v (hvars v hv)
    have L := lieLaws (K v.ty)
    rw [hrep.block_eq hv, hf]
    show (K v.ty).ops.value ((K v.ty).ops.rplus ((K v.ty).ops.value ((K v.ty).ops.rplus ((K v.ty).ops.value (pose v)).flatten _)).flatten _) =
      (K v.ty).ops.value ((K v.ty).ops.rplus ((K v.ty).ops.value (pose v)).flatten _)
    rw [value_flatten, value_flatten]
    unfold LieGroup.rplus
    rw [hx, L.mul_assoc _ _ _ hT (L.exp _) (L.exp _)]
  · have hsup : ‖d' - (p.1 + p.2)‖ ≤ θ / (√g.localLayout.dim + 1) * ‖p‖ := by
      rw [pi_norm_le_iff_of_nonneg (by positivity)]
      intro i
      obtain ⟨v, hv, j, hcoord⟩ := coordinate hG i
      have e : ∀ w : Fin g.localLayout.dim → ℝ, (List.ofFn w).getD i 0 = w i := by
        intro w
        rw [List.getD_eq_getElem _ _ (by simp), List.getElem_ofFn]
      have e1 := hcoord _ _ hrep
      have e2 := hcoord _ _ (rep_delta hG p.1)
      have e3 := hcoord _ _ (rep_delta hG p.2)
      rw [e] at e1 e2 e3
      rw [Real.norm_eq_abs, Pi.sub_apply, Pi.add_apply, e1, e2, e3, hf]
      exact (hp v (List.mem_toFinset.2 hv)).2 j
    have hp' : ‖p‖ ≤ eucl p.1 + eucl p.2 := by
      rw [Prod.norm_def]
      refine max_le ((norm_le_eucl _).trans ?_) ((norm_le_eucl _).trans ?_)
      · linarith [eucl_nonneg p.2]
      · linarith [eucl_nonneg p.1]
    calc eucl (d' - (p.1 + p.2)) ≤ √g.localLayout.dim * ‖d' - (p.1 + p.2)‖ := eucl_le_norm _
      _ ≤ (√g.localLayout.dim + 1) * (θ / (√g.localLayout.dim + 1) * ‖p‖) :=
        mul_le_mul (by linarith) hsup (norm_nonneg _) (by positivity)
      _ = θ * ‖p‖ := by field_simp
      _ ≤ θ * (eucl p.1 + eucl p.2) := mul_le_mul_of_nonneg_left hp' hθ.le

/-! ### The Jacobians of pose factors are continuous -/

/-- The Jacobians of pose factors depend continuously on the poses. -/
theorem pose_continuous (hC : ∀ t, C t = (K t).ops.varClass) {f : Factor} {P : (Var → List ℝ) → Prop} (hf : Measures F K f P)
    {pose : Var → List ℝ} (hpose : ∀ v ∈ f.vars, (K v.ty).Valid (pose v)) :
    JacobiansContinuous F C f (f.vars.map (poseValue K pose)) := by
  cases hf with
  | prior cls v mu noise hF hmu =>
    intro i
    have e : ∀ vals, (F cls).jacobians (PriorFactor.make cls v ((K v.ty).ops.value mu) noise).self vals = [negEye (K v.ty).ops.tangentDim] := by
      intro vals
      rw [hF]
      rfl
    show ContinuousAt (fun x => arrMat (((F cls).jacobians _ _).getD _ _) _ _) 0
    simp only [e]
    exact continuousAt_const
  | between cls a b M noise f hF hM hf =>
    obtain ⟨hab, -, rfl⟩ := between_make_ok hf
    have hTa : (K a.ty).Valid (pose a) := hpose a (by simp)
    have hTb : (K a.ty).Valid (pose b) := by rw [hab]; exact hpose b (by simp)
    have hCb : C b.ty = (K a.ty).ops.varClass := by rw [hab]; exact hC _
    have L := lieLaws (K a.ty)
    have e : [a, b].map (poseValue K pose) = [(K a.ty).ops.value (pose a), (K a.ty).ops.value (pose b)] := by
      simp only [List.map_cons, List.map_nil, poseValue]
      rw [hab]
    show JacobiansContinuous F C _ ([a, b].map (poseValue K pose))
    rw [e]
    intro i
    have e1 : ∀ x : Deltas C [a, b], (F cls).jacobians (Factor.self ⟨cls, [a, b], noise, ((K a.ty).ops.value M).leaves⟩)
        (movedBy C [a, b] [(K a.ty).ops.value (pose a), (K a.ty).ops.value (pose b)] x) =
        [(K a.ty).ops.adjoint ((K a.ty).ops.inverse ((K a.ty).ops.multiply
          ((K a.ty).ops.inverse ((K a.ty).ops.rplus (pose a) (List.ofFn (x 0)))) ((K a.ty).ops.rplus (pose b) (List.ofFn (x 1))))),
          negEye (K a.ty).ops.tangentDim] := by
      intro x
      show (F cls).jacobians _ [(C a.ty).retract ((K a.ty).ops.value (pose a)) (List.ofFn (x 0)),
        (C b.ty).retract ((K a.ty).ops.value (pose b)) (List.ofFn (x 1))] = _
      rw [hF, hC a.ty, hCb]
      show [(K a.ty).ops.adjoint ((K a.ty).ops.inverse ((K a.ty).ops.multiply ((K a.ty).ops.inverse
        ((K a.ty).ops.value ((K a.ty).ops.rplus ((K a.ty).ops.value (pose a)).flatten (List.ofFn (x 0)))).flatten)
        ((K a.ty).ops.value ((K a.ty).ops.rplus ((K a.ty).ops.value (pose b)).flatten (List.ofFn (x 1)))).flatten)), _] = _
      rw [value_flatten, value_flatten, value_flatten, value_flatten]
    have hsm := smooth_adjoint (K a.ty) (smooth_inverse (K a.ty) (smooth_multiply (K a.ty)
      (smooth_inverse (K a.ty) (smooth_moved (0 : Fin [a, b].length) (hC a.ty) hTa))
      (smooth_moved (1 : Fin [a, b].length) hCb hTb) fun x => L.len _ (L.inv _ (L.mul _ _ hTa (L.exp _)))))
    show ContinuousAt (fun x : Deltas C [a, b] => arrMat (((F cls).jacobians (Factor.self ⟨cls, [a, b], noise, ((K a.ty).ops.value M).leaves⟩)
      (movedBy C [a, b] [(K a.ty).ops.value (pose a), (K a.ty).ops.value (pose b)] x)).getD i ⟨[], []⟩) _ _) 0
    simp only [e1]
    match i with
    | ⟨0, _⟩ => exact continuousAt_pi.2 fun p => continuousAt_pi.2 fun q => (hsm _).continuousAt
    | ⟨1, _⟩ => exact continuousAt_const

/-- What `FixedIterationGaussNewtonSolver` with `n ≥ 1` iterations returns comes from `n` steps. -/
theorem fixed_runs {CE : Ty → VarClass Ext} {gE : GraphOps Ext} {sE : FixedIteration Ext} {a out : Assign Ext} {n fuel : Nat}
    {log : List (Msg Ext)} (hn : sE.iterations = n + 1) (hsol : sE.solve CE gE fuel a = .ok (some (out, log))) :
    ∃ st st' l done, initState gE a = .ok st ∧ Runs done (sE.step CE gE) (n + 1) st st' l ∧ out = st'.assignments := by
  obtain ⟨c1, c2, c3, c4⟩ := C49_fixed_iteration CE gE sE a
  obtain ⟨st, st', l, k, h1, ⟨done, h2⟩, hk, rfl⟩ : ∃ st st' l k, initState gE a = .ok st ∧
      (∃ done, Runs done (sE.step CE gE) k st st' l) ∧ k = n + 1 ∧ out = st'.assignments := by
    cases hu : sE.unroll with
    | true =>
      obtain ⟨st, st', l, h1, h2, h3⟩ := c1 hu _ _ _ hsol
      exact ⟨st, st', l, _, h1, ⟨_, h2⟩, by omega, h3⟩
    | false =>
      obtain ⟨st, st', l, h1, h2, rfl, -⟩ := fixedSolve_some.1 hsol
      rw [hu, if_neg (by simp)] at h2
      obtain ⟨k, -, hk1, hk2⟩ := runs_of_whileLoop h2
      refine ⟨st, st', l, k, h1, ⟨_, hk1⟩, ?_, rfl⟩
      obtain ⟨hd0, hz⟩ := initState_fresh h1
      cases hk1 with
      | refl => rw [hd0] at hk2; cases hk2
      | @step k' _ u _ _ _ r1 r2 r3 =>
        have hu1 := (fixed_counted (C := CE) (g := gE) sE).runs r1
        obtain ⟨A, ATr, delta, b, c, r, -, -, -, -, -, rfl, -⟩ := fixedStep_ok.1 r3
        simp only [id, hz] at hu1
        simp only [decide_eq_true_eq] at hk2
        have hlow : (k' : Int) ≤ n := by
          cases r1 with
          | refl => omega
          | step q1 _ q3 =>
            have hu2 := (fixed_counted (C := CE) (g := gE) sE).runs q1
            have hdone := ((fixed_counted (C := CE) (g := gE) sE).next q3).2
            simp only [id, hz] at hu2 hdone
            by_contra hlt
            have : u.done = true := hdone (by rw [hu2, hn]; push_cast at hlt ⊢; omega)
            rw [this] at r2; cases r2
        omega
  exact ⟨st, st', l, done, h1, hk ▸ h2, rfl⟩

/-! ### One step -/

/-- A matrix with linearly independent columns has a smallest singular value. -/
theorem stiff_of_injective {m n : Nat} {M : Matrix (Fin m) (Fin n) ℝ} (h : ∀ x, M *ᵥ x = 0 → x = 0) :
    ∃ σ > 0, ∀ v, σ * (v ⬝ᵥ v) ≤ (M *ᵥ v) ⬝ᵥ (M *ᵥ v) := by
  obtain ⟨K, hK, hanti⟩ := LinearMap.exists_antilipschitzWith (mulVecL M).toLinearMap (LinearMap.ker_eq_bot'.2 fun x hx => h x hx)
  have hK' : (0 : ℝ) < K := hK
  have hpos : 0 < √n * K + 1 := by positivity
  refine ⟨(1 / (√n * K + 1)) ^ 2, by positivity, fun v => ?_⟩
  rw [← eucl_sq, ← eucl_sq, ← mul_pow]
  refine pow_le_pow_left₀ (mul_nonneg (by positivity) (eucl_nonneg v)) ?_ 2
  rw [one_div, inv_mul_le_iff₀ hpos]
  have h1 := hanti.le_mul_dist v 0
  rw [map_zero, dist_zero_right, dist_zero_right] at h1
  have h1' : ‖v‖ ≤ K * ‖M *ᵥ v‖ := h1
  have h2 : ‖v‖ ≤ K * eucl (M *ᵥ v) := h1'.trans (mul_le_mul_of_nonneg_left (norm_le_eucl _) hK'.le)
  calc eucl v ≤ √n * ‖v‖ := eucl_le_norm v
    _ ≤ √n * (K * eucl (M *ᵥ v)) := mul_le_mul_of_nonneg_left h2 (Real.sqrt_nonneg _)
    _ ≤ (√n * K + 1) * eucl (M *ᵥ v) := by nlinarith [eucl_nonneg (M *ᵥ v)]

/-- Residuals and Jacobians near an exact fit. -/
theorem pose_near (hC : ∀ t, C t = (K t).ops.varClass) {fs : List Factor} (hne : fs ≠ [])
    {P : Factor → (Var → List ℝ) → Prop} (hfs : ∀ f ∈ fs, Measures F K f (P f))
    (hnoise : ∀ f ∈ fs, ∀ v ∈ f.vars, NoiseWF f.noise (K v.ty).ops.tangentDim (K v.ty).ops.tangentDim ∧
      NoiseRegular f.noise (K v.ty).ops.tangentDim) (hgauss : ∀ f ∈ fs, NoiseGaussian f.noise) {g : Graph}
    (hg : Graph.make C fs = .ok g) {vars : List Var} {pose : Var → List ℝ} {e : Assign ℝ} (hpose : ∀ v ∈ vars, (K v.ty).Valid (pose v))
    (h : Holds C fs vars (poseValue K pose) e) (hlay : e.layout = g.layout) (hP : ∀ f ∈ fs, P f pose)
    (hanch : ∀ v ∈ vars, Anchored fs v) :
    ∃ (b : (Fin g.localLayout.dim → ℝ) → Assign ℝ) (c : (Fin g.localLayout.dim → ℝ) → ℝ) (r : (Fin g.localLayout.dim → ℝ) → List ℝ)
      (A : (Fin g.localLayout.dim → ℝ) → Coo ℝ) (A₀ : Matrix (Fin g.residualDim) (Fin g.localLayout.dim) ℝ) (σ : ℝ), 0 < σ ∧
      (∀ d, e.manifoldRetract C ⟨List.ofFn d, g.localLayout⟩ = .ok (b d) ∧ (b d).layout = g.layout ∧
        g.computeCost F C (b d) = .ok (c d, r d) ∧ (r d).length = g.residualDim ∧
        g.computeWhitenedResidualJacobian F C (b d) (r d) = .ok (A d) ∧ CooWF (A d) ∧
        (A d).shape = (g.residualDim, g.localLayout.dim) ∧ IsAssignmentOf C (Graph.variablesOf fs) (b d)) ∧
      HasFDerivAt (fun d => Spec.vec (r d) g.residualDim) (mulVecL A₀) 0 ∧ Spec.vec (r 0) g.residualDim = 0 ∧
      (∀ k j, Tendsto (fun d => cooMatrix (A d) g.residualDim g.localLayout.dim k j) (𝓝 0) (𝓝 (A₀ k j))) ∧
      (∀ v, σ * (v ⬝ᵥ v) ≤ (A₀ *ᵥ v) ⬝ᵥ (A₀ *ᵥ v)) ∧
      ∀ θ > 0, ∀ᶠ p : (Fin g.localLayout.dim → ℝ) × (Fin g.localLayout.dim → ℝ) in 𝓝 0, ∃ d' : Fin g.localLayout.dim → ℝ,
        (b p.1).manifoldRetract C ⟨List.ofFn p.2, g.localLayout⟩ = .ok (b d') ∧
        eucl (d' - (p.1 + p.2)) ≤ θ * (eucl p.1 + eucl p.2) := by
  have hGC := lie_goodClasses hC
  have hwf : ∀ f ∈ fs, FactorWF F C f ∧ ∀ v ∈ f.vars, rdim f = (K v.ty).ops.tangentDim := fun f hf =>
    C54_wellformed F C K f (P f) (hfs f hf) fun v hv => ⟨hC _, (hnoise f hf v hv).1⟩
  have hwf' : ∀ f ∈ fs, FactorWF F C f := fun f hf => (hwf f hf).1
  obtain ⟨g', hg', hzc⟩ := C54_cost_zero_iff F C K hC fs hne P hfs hnoise
  rw [hg] at hg'; cases hg'
  obtain ⟨g', hg', hG⟩ := graph_ok (F := F) hwf' hne
  rw [hg] at hg'; cases hg'
  obtain ⟨g', hg', hsane⟩ := sane_graph (F := F) hGC hwf' hne
  rw [hg] at hg'; cases hg'
  have htot : ∀ f ∈ fs, JacobiansTotal F C f (f.vars.map (poseValue K pose)) := fun f hf =>
    C56_total_at_measurement_partial F C K f (P f) (hfs f hf) (fun v _ => hC _) (hwf f hf).2 pose
      (fun v hv => hpose v ((h.sameVars v).2 ⟨f, hf, hv⟩)) (hP f hf)
  have hcont : ∀ f ∈ fs, JacobiansContinuous F C f (f.vars.map (poseValue K pose)) := fun f hf =>
    pose_continuous hC (hfs f hf) fun v hv => hpose v ((h.sameVars v).2 ⟨f, hf, hv⟩)
  have hzero : ∀ v ∈ vars, (C v.ty).retract (poseValue K pose v) (List.replicate (C v.ty).localDim 0) = poseValue K pose v := by
    intro v hv
    have e : (C v.ty).localDim = (K v.ty).ops.tangentDim := by rw [hC]; rfl
    rw [e, hC]
    show (K v.ty).ops.value ((K v.ty).ops.rplus ((K v.ty).ops.value (pose v)).flatten (List.replicate _ 0)) = _
    have e0 := rplus_zero (hpose v hv) rfl
    rw [show (0 : Fin (K v.ty).ops.tangentDim → ℝ) = fun _ => 0 from rfl, List.ofFn_const] at e0
    rw [value_flatten, e0]
    rfl
  obtain ⟨c₀, r₀, hcost, hiff⟩ := hzc vars pose e hpose h
  rw [hiff.2 hP] at hcost
  obtain ⟨w, hw⟩ := h.whitened hGC hwf'
  have hcost' := cost_ok F C hGC hne hwf' hG h fun f hf => (hw f hf).1
  have : ∀ f, ∃ R, f ∈ fs → whitenedJacobiansAt F (poseValue K pose) f (w f) = .ok R := by
    intro f
    by_cases hf : f ∈ fs
    · obtain ⟨R, h1, _⟩ := whitenedJacobians_ok (hwf' f hf) (h.valuesFor hGC hf) (hw f hf).2
      exact ⟨R, fun _ => h1⟩
    · exact ⟨[], fun h => absurd h hf⟩
  choose R hR using this
  have hres := (residual_ok hGC hwf' hne hG h (fun f hf => (hw f hf).1)).1
  obtain ⟨A₀, hJ, hA₀, hshape, -, -, -⟩ := jacobian_ok hGC hwf' hne hG h (fun f hf => (hw f hf).2) hR
  rw [hcost] at hcost'
  have hr := congrArg Prod.snd (Except.ok.inj hcost')
  simp only at hr
  rw [← hr] at hJ hres
  have hinj := anchored_injective hC hne (fun f hf => ⟨P f, hfs f hf⟩) hnoise hpose h hanch hg hres hJ hA₀
  rw [hshape] at hinj
  obtain ⟨σ, hσ, hst⟩ := stiff_of_injective hinj
  obtain ⟨-, -, b, c, r, A, hall, hder, hz, hnear⟩ := jacobian_near hGC hne hwf' hgauss hg h hlay hzero htot hcont hcost hJ
  refine ⟨b, c, r, A, _, σ, hσ, fun d => ?_, hder, hz, hnear, hst, fun θ hθ => ?_⟩
  · obtain ⟨e1, e2, e3, e4, e5, e6, e7⟩ := hall d
    obtain ⟨b₁, l1, l2, l3⟩ := holds_retract hGC hG h hlay (d := List.ofFn d) (by simp)
    rw [e1] at l1
    cases l1
    exact ⟨e1, e2, e3, e4, e5, e6, e7, l3.assignment⟩
  · filter_upwards [two_steps hC hG hpose h hlay θ hθ] with p hp
    obtain ⟨d', n1, n2⟩ := hp
    exact ⟨d', (n1 _ (hall _).1).trans (hall d').1, n2⟩

/-- Lists of numbers as vectors. -/
theorem exists_ofFn {n : Nat} (d : List ℝ) (hd : d.length = n) : ∃ v : Fin n → ℝ, d = List.ofFn v := by
  refine ⟨fun i => d[i.1]'(by rw [hd]; exact i.2), ?_⟩
  apply List.ext_getElem
  · simp [hd]
  · intro i _ _; simp

theorem vec_ofFn {n : Nat} (v : Fin n → ℝ) : Spec.vec (List.ofFn v) n = v := by
  funext i
  simp [Spec.vec]

theorem nrm_ofFn {n : Nat} (v : Fin n → ℝ) : √(sqNorm (List.ofFn v)) = eucl v := by
  rw [sqNorm_eq (n := n) (by simp), vec_ofFn]
  rfl

/-- One Gauss-Newton step near an exact fit. -/
theorem pose_step (hC : ∀ t, C t = (K t).ops.varClass) {fs : List Factor} (hne : fs ≠ [])
    {P : Factor → (Var → List ℝ) → Prop} (hfs : ∀ f ∈ fs, Measures F K f (P f))
    (hnoise : ∀ f ∈ fs, ∀ v ∈ f.vars, NoiseWF f.noise (K v.ty).ops.tangentDim (K v.ty).ops.tangentDim ∧
      NoiseRegular f.noise (K v.ty).ops.tangentDim) (hgauss : ∀ f ∈ fs, NoiseGaussian f.noise) {g : Graph}
    (hg : Graph.make C fs = .ok g) {vars : List Var} {pose : Var → List ℝ} {e : Assign ℝ} (hpose : ∀ v ∈ vars, (K v.ty).Valid (pose v))
    (h : Holds C fs vars (poseValue K pose) e) (hlay : e.layout = g.layout) (hP : ∀ f ∈ fs, P f pose)
    (hanch : ∀ v ∈ vars, Anchored fs v) {μ : ℝ} (hμ : 0 ≤ μ) :
    ∃ κ₀ < 1, (μ = 0 → κ₀ = 0) ∧ 0 ≤ κ₀ ∧ ∀ κ > κ₀, ∃ ε > 0, ∀ d : List ℝ, d.length = g.localLayout.dim → √(sqNorm d) < ε → ∀ a,
      e.manifoldRetract C ⟨d, g.localLayout⟩ = .ok a → ∀ c r A, g.computeCost F C a = .ok (c, r) →
      g.computeWhitenedResidualJacobian F C a r = .ok A → ∀ y, A.T.matmul r = .ok y → ∀ L : LinSolver ℝ,
      AllJacobians C (g.ops F C) (Graph.variablesOf fs) (DampedAt 0 μ L) → ∀ i x, L A (y.map fun t => -t) 0 i = .ok x → ∀ b,
      a.manifoldRetract C ⟨x, g.localLayout⟩ = .ok b → ∃ d' : List ℝ, d'.length = g.localLayout.dim ∧
        e.manifoldRetract C ⟨d', g.localLayout⟩ = .ok b ∧ √(sqNorm d') ≤ κ * √(sqNorm d) := by
  obtain ⟨b, c, r, A, A₀, σ, hσ, hall, hder, hz, hnear, hst, htwo⟩ := pose_near hC hne hfs hnoise hgauss hg hpose h hlay hP hanch
  have hκ1 : μ / (σ + μ) < 1 := by rw [div_lt_one (by linarith)]; linarith
  refine ⟨μ / (σ + μ), hκ1, fun h0 => by rw [h0, zero_div], by positivity, fun κ hκ => ?_⟩
  obtain ⟨ε, hε, H⟩ := newton_contracts (R := fun d x d' => (b d).manifoldRetract C ⟨List.ofFn x, g.localLayout⟩ = .ok (b d'))
    hder hz hnear hσ hμ hst hκ htwo
  refine ⟨ε, hε, fun d hd hdε a ha ca ra Aa hca hAa y hy L hL i x hx b' hb' => ?_⟩
  obtain ⟨d, rfl⟩ := exists_ofFn d hd
  rw [nrm_ofFn] at hdε
  obtain ⟨e1, e2, e3, e4, e5, e6, e7, e8⟩ := hall d
  rw [e1] at ha
  cases ha
  rw [e3] at hca
  cases hca
  rw [e5] at hAa
  cases hAa
  obtain ⟨k1, k2, k3⟩ := descent_ok e6 (matmul_neg (cooWF_T e6) hy)
  obtain ⟨m1, m2⟩ := hL (b d) (b d) (c d) (r d) (A d) e8 e2 e8 e2 e3 e5 _ _ _ k2 hx
  rw [k3] at m2
  rw [e7] at m1 m2
  obtain ⟨x, rfl⟩ := exists_ofFn x m1
  simp only [vec_ofFn] at m2
  obtain ⟨d', n1, n2⟩ := H d hdε x m2
  rw [hb'] at n1
  exact ⟨List.ofFn d', by simp, (hall d').1.trans n1.symm, by rw [nrm_ofFn, nrm_ofFn]; exact n2⟩

/-! ### C127 -/

variable (F C K)

/-- **C127.** Let a pose graph of prior and between factors over the four groups, with Gaussian noise models that are blind in no direction,
have poses `e` that satisfy all measurements, every pose being tied to the world by a chain of measurements that ends in a prior. Let the
linear solver, called without damping, solve the normal equations with `μ` added to the diagonal. Then there is a rate below one, which is
zero if `μ` is, such that for every larger `κ ≤ 1`, Gauss-Newton started sufficiently near `e`, at `e` retracted by `d`, is after `k`
steps at `e` retracted by some `d'` with `|d'| ≤ κᵏ |d|`. -/
theorem C127_gauss_newton (hC : ∀ t, C t = (K t).ops.varClass) (fs : List Factor) (hne : fs ≠ [])
    (P : Factor → (Var → List ℝ) → Prop) (hfs : ∀ f ∈ fs, Measures F K f (P f))
    (hnoise : ∀ f ∈ fs, ∀ v ∈ f.vars, NoiseWF f.noise (K v.ty).ops.tangentDim (K v.ty).ops.tangentDim ∧
      NoiseRegular f.noise (K v.ty).ops.tangentDim) (hgauss : ∀ f ∈ fs, NoiseGaussian f.noise) :
    ∃ g, Graph.make C fs = .ok g ∧
      ∀ vars pose e, (∀ v ∈ vars, (K v.ty).Valid (pose v)) → Holds C fs vars (poseValue K pose) e → e.layout = g.layout →
        (∀ f ∈ fs, P f pose) → (∀ v ∈ vars, Anchored fs v) → ∀ μ, 0 ≤ μ →
        ∃ κ₀ < 1, (μ = 0 → κ₀ = 0) ∧ ∀ κ, κ₀ < κ → κ ≤ 1 → ∃ ε > 0,
          ∀ CE gE, Lifts CE gE C (g.ops F C) → ∀ sE s, LiftsGN sE s →
            AllJacobians C (g.ops F C) (Graph.variablesOf fs) (DampedAt 0 μ s.linear) →
            ∀ d : List ℝ, d.length = g.localLayout.dim → √(sqNorm d) < ε → ∀ a, e.manifoldRetract C ⟨d, g.localLayout⟩ = .ok a →
            ∀ st st' k log, initState gE (a.map fin) = .ok st → Runs (fun s => s.done) (sE.step CE gE) k st st' log →
              ∃ d' b, d'.length = g.localLayout.dim ∧ e.manifoldRetract C ⟨d', g.localLayout⟩ = .ok b ∧
                st'.assignments = b.map fin ∧ √(sqNorm d') ≤ κ ^ k * √(sqNorm d) := by
  have hwf' : ∀ f ∈ fs, FactorWF F C f := fun f hf =>
    (C54_wellformed F C K f (P f) (hfs f hf) fun v hv => ⟨hC _, (hnoise f hf v hv).1⟩).1
  obtain ⟨g, hg, -⟩ := graph_ok (F := F) hwf' hne
  refine ⟨g, hg, fun vars pose e hpose h hlay hP hanch μ hμ => ?_⟩
  obtain ⟨κ₀, h1, h2, h2', h3⟩ := pose_step hC hne hfs hnoise hgauss hg hpose h hlay hP hanch hμ
  refine ⟨κ₀, h1, h2, fun κ hκ hκ1 => ?_⟩
  obtain ⟨ε, hε, H⟩ := h3 κ hκ
  have hκ0 : 0 ≤ κ := h2'.trans hκ.le
  refine ⟨ε, hε, fun CE gE hl sE s hs hL d hd hdε a ha st st' k log hi hr => ?_⟩
  obtain ⟨c, r, hc, rfl⟩ := (initState_fin hl).1 hi
  suffices HS : ∃ (q : State ℝ) (d' : List ℝ), st' = q.map fin ∧ (g.ops F C).computeCost q.assignments = .ok (q.cost, q.residual) ∧
      d'.length = g.localLayout.dim ∧ e.manifoldRetract C ⟨d', g.localLayout⟩ = .ok q.assignments ∧
      √(sqNorm d') ≤ κ ^ k * √(sqNorm d) by
    obtain ⟨q, d', rfl, -, k2, k3, k4⟩ := HS
    exact ⟨d', _, k2, k3, rfl, k4⟩
  generalize hst : State.map fin ⟨0, a, c, r, false⟩ = st at hr
  induction hr with
  | refl s => exact ⟨_, d, hst.symm, hc, hd, ha, by simp⟩
  | step r1 r2 r3 ih =>
    obtain ⟨q, d₁, rfl, hq, hd₁, hqe, hqd⟩ := ih hst
    obtain ⟨A, ATr, x, b, c, r, conv, hA, hT, hx, hb, hc, -, rfl, -⟩ := (gnStep_fin hl hs).1 r3
    have hlt : √(sqNorm d₁) < ε :=
      (hqd.trans (mul_le_of_le_one_left (Real.sqrt_nonneg _) (pow_le_one₀ hκ0 hκ1))).trans_lt hdε
    obtain ⟨d', n1, n2, n3⟩ := H d₁ hd₁ hlt q.assignments hqe q.cost q.residual A hq hA ATr hT s.linear hL _ x hx b hb
    refine ⟨_, d', rfl, hc, n1, n2, n3.trans ?_⟩
    rw [pow_succ', mul_assoc]
    exact mul_le_mul_of_nonneg_left hqd hκ0

/-- **C127**, fixed number of iterations. In the situation of `C127_gauss_newton`, whatever `FixedIterationGaussNewtonSolver` with `n ≥ 1`
iterations returns is `e` retracted by some `d'` with `|d'| ≤ κⁿ |d|`, whether the loop is unrolled or not. -/
theorem C127_fixed_iteration (hC : ∀ t, C t = (K t).ops.varClass) (fs : List Factor) (hne : fs ≠ [])
    (P : Factor → (Var → List ℝ) → Prop) (hfs : ∀ f ∈ fs, Measures F K f (P f))
    (hnoise : ∀ f ∈ fs, ∀ v ∈ f.vars, NoiseWF f.noise (K v.ty).ops.tangentDim (K v.ty).ops.tangentDim ∧
      NoiseRegular f.noise (K v.ty).ops.tangentDim) (hgauss : ∀ f ∈ fs, NoiseGaussian f.noise) :
    ∃ g, Graph.make C fs = .ok g ∧
      ∀ vars pose e, (∀ v ∈ vars, (K v.ty).Valid (pose v)) → Holds C fs vars (poseValue K pose) e → e.layout = g.layout →
        (∀ f ∈ fs, P f pose) → (∀ v ∈ vars, Anchored fs v) → ∀ μ, 0 ≤ μ →
        ∃ κ₀ < 1, (μ = 0 → κ₀ = 0) ∧ ∀ κ, κ₀ < κ → κ ≤ 1 → ∃ ε > 0,
          ∀ CE gE, Lifts CE gE C (g.ops F C) → ∀ (sE : FixedIteration Ext) L, LiftsSolver sE.linear L →
            AllJacobians C (g.ops F C) (Graph.variablesOf fs) (DampedAt 0 μ L) →
            ∀ d : List ℝ, d.length = g.localLayout.dim → √(sqNorm d) < ε → ∀ a, e.manifoldRetract C ⟨d, g.localLayout⟩ = .ok a →
            ∀ n : Nat, sE.iterations = n + 1 → ReturnsOnly (sE.solve CE gE) a fun b =>
              ∃ d', d'.length = g.localLayout.dim ∧ e.manifoldRetract C ⟨d', g.localLayout⟩ = .ok b ∧
                √(sqNorm d') ≤ κ ^ (n + 1) * √(sqNorm d) := by
  have hwf' : ∀ f ∈ fs, FactorWF F C f := fun f hf =>
    (C54_wellformed F C K f (P f) (hfs f hf) fun v hv => ⟨hC _, (hnoise f hf v hv).1⟩).1
  obtain ⟨g, hg, -⟩ := graph_ok (F := F) hwf' hne
  refine ⟨g, hg, fun vars pose e hpose h hlay hP hanch μ hμ => ?_⟩
  obtain ⟨κ₀, h1, h2, h2', h3⟩ := pose_step hC hne hfs hnoise hgauss hg hpose h hlay hP hanch hμ
  refine ⟨κ₀, h1, h2, fun κ hκ hκ1 => ?_⟩
  obtain ⟨ε, hε, H⟩ := h3 κ hκ
  have hκ0 : 0 ≤ κ := h2'.trans hκ.le
  refine ⟨ε, hε, fun CE gE hl sE L hs hL d hd hdε a ha n hn fuel out log hsol => ?_⟩
  have HS : ∀ {done : State Ext → Bool} {st st' k l}, initState gE (a.map fin) = .ok st → Runs done (sE.step CE gE) k st st' l →
      ∃ (q : State ℝ) (d' : List ℝ), st' = q.map fin ∧ (g.ops F C).computeCost q.assignments = .ok (q.cost, q.residual) ∧
      d'.length = g.localLayout.dim ∧ e.manifoldRetract C ⟨d', g.localLayout⟩ = .ok q.assignments ∧
      √(sqNorm d') ≤ κ ^ k * √(sqNorm d) := by
    intro done st st' k l hi hr
    obtain ⟨c, r, hc, rfl⟩ := (initState_fin hl).1 hi
    generalize hst : State.map fin ⟨0, a, c, r, false⟩ = st at hr
    induction hr with
    | refl s => exact ⟨_, d, hst.symm, hc, hd, ha, by simp⟩
    | step r1 r2 r3 ih =>
      obtain ⟨q, d₁, rfl, hq, hd₁, hqe, hqd⟩ := ih hst
      obtain ⟨A, ATr, x, b, c, r, hA, hT, hx, hb, hc, rfl, -⟩ := (fixedStep_fin hl hs).1 r3
      have hlt : √(sqNorm d₁) < ε :=
        (hqd.trans (mul_le_of_le_one_left (Real.sqrt_nonneg _) (pow_le_one₀ hκ0 hκ1))).trans_lt hdε
      obtain ⟨d', n1, n2, n3⟩ := H d₁ hd₁ hlt q.assignments hqe q.cost q.residual A hq hA ATr hT L hL _ x hx b hb
      refine ⟨_, d', rfl, hc, n1, n2, n3.trans ?_⟩
      rw [pow_succ', mul_assoc]
      exact mul_le_mul_of_nonneg_left hqd hκ0
  obtain ⟨st, st', l, done, s1, s2, rfl⟩ := fixed_runs hn hsol
  obtain ⟨q, d', rfl, -, k2, k3, k4⟩ := HS s1 s2
  exact ⟨_, rfl, d', k2, k3, k4⟩

end

namespace PoseEx

/-- The setting of the concrete case of C126. -/
theorem fit_setup : ∃ (P : Factor → (Var → List ℝ) → Prop) (a : Assign ℝ), (∀ f ∈ [prior, plain], Measures F K f (P f)) ∧
    (∀ f ∈ [prior, plain], P f (pose true)) ∧ Holds C [prior, plain] [x, y] (poseValue K (pose true)) a ∧
    (∀ g, Graph.make C [prior, plain] = .ok g → a.layout = g.layout) ∧
    (∀ f ∈ [prior, plain], ∀ v ∈ f.vars, NoiseWF f.noise (K v.ty).ops.tangentDim (K v.ty).ops.tangentDim ∧
      NoiseRegular f.noise (K v.ty).ops.tangentDim) ∧ (∀ f ∈ [prior, plain], NoiseGaussian f.noise) ∧
    (∀ f ∈ [prior, plain], FactorWF F C f) ∧ ∀ v ∈ [x, y], Anchored [prior, plain] v := by
  have hfs : ∀ f ∈ [prior, plain], ∃ Q, Measures F K f Q ∧ Q (pose true) := by
    intro f hf
    simp only [List.mem_cons, List.not_mem_nil, or_false] at hf
    rcases hf with rfl | rfl
    · exact ⟨_, measures.1, by simp [pose]⟩
    · exact ⟨_, plain_measures, plain_fits⟩
  have : ∀ f, ∃ Q, f ∈ [prior, plain] → Measures F K f Q ∧ Q (pose true) := fun f => by
    by_cases hf : f ∈ [prior, plain]
    · obtain ⟨Q, h⟩ := hfs f hf
      exact ⟨Q, fun _ => h⟩
    · exact ⟨fun _ => True, fun h => absurd h hf⟩
  choose P hP using this
  have hvars : Graph.variablesOf [prior, plain] = [x, y] := rfl
  obtain ⟨a, ha, hlay⟩ := plain_holds hvars
  have hnoise : ∀ f ∈ [prior, plain], ∀ v ∈ f.vars, NoiseWF f.noise (K v.ty).ops.tangentDim (K v.ty).ops.tangentDim ∧
      NoiseRegular f.noise (K v.ty).ops.tangentDim := by
    intro f hf
    simp only [List.mem_cons, List.not_mem_nil, or_false] at hf
    rcases hf with rfl | rfl
    · exact prior_noise
    · exact plain_noise
  have hwf : ∀ f ∈ [prior, plain], FactorWF F C f := fun f hf =>
    (C54_wellformed F C K f (P f) (hP f hf).1 fun v hv => ⟨rfl, (hnoise f hf v hv).1⟩).1
  refine ⟨P, a, fun f hf => (hP f hf).1, fun f hf => (hP f hf).2, ha, fun g hg => ?_, hnoise, ?_, hwf, ?_⟩
  · obtain ⟨g', hg', hG⟩ := graph_ok (F := F) hwf (by simp)
    rw [hg] at hg'; cases hg'
    rw [hlay, hG.layout, hvars]
  · intro f hf
    simp only [List.mem_cons, List.not_mem_nil, or_false] at hf
    rcases hf with rfl | rfl <;> trivial
  · intro v hv
    have hx : Anchored [prior, plain] x := .prior (f := prior) (by simp) rfl
    simp only [List.mem_cons, List.not_mem_nil, or_false] at hv
    rcases hv with rfl | rfl
    · exact hx
    · exact .forward (f := plain) (by simp) rfl hx

/-- The concrete case: the two planar poses of C126, and Gauss-Newton with CHOLMOD, which adds `1e-5` to the diagonal. -/
example (stale : Pattern → ScipyCoo ℝ → ℝ → List ℝ → Py (List ℝ)) (addr : Nat) :
    ∃ g e, Graph.make C [prior, plain] = .ok g ∧ Holds C [prior, plain] [x, y] (poseValue K (pose true)) e ∧ ∃ κ < 1, ∃ ε > 0,
      ∀ d : List ℝ, d.length = g.localLayout.dim → √(sqNorm d) < ε → ∀ a, e.manifoldRetract C ⟨d, g.localLayout⟩ = .ok a →
        ∀ st st' k log, initState (g.ops F C).lift (a.map fin) = .ok st →
          Runs (fun s => s.done) ((GaussNewton.defaults fun A b l _ => (cholmodSolve stale .empty addr A b l).1).lift.step
            (fun t => (C t).lift) (g.ops F C).lift) k st st' log →
          ∃ d' b, d'.length = g.localLayout.dim ∧ e.manifoldRetract C ⟨d', g.localLayout⟩ = .ok b ∧ st'.assignments = b.map fin ∧
            √(sqNorm d') ≤ κ ^ k * √(sqNorm d) := by
  obtain ⟨P, e, h1, h2, h3, h4, h5, h6, h7, h8⟩ := fit_setup
  obtain ⟨g, hg, h⟩ := C127_gauss_newton F C K (fun _ => rfl) _ (by simp) P h1 h5 h6
  obtain ⟨g', hg', hs⟩ := sane_graph (F := F) (C := C) (lie_goodClasses (K := K) fun _ => rfl) h7 (by simp)
  rw [hg] at hg'; cases hg'
  obtain ⟨κ₀, k1, -, k3⟩ := h [x, y] (pose true) e (fun v hv => pose_valid true v (by simp at hv ⊢; tauto)) h3 (h4 g hg) h2 h8
    (1 / 100000) (by norm_num)
  obtain ⟨ε, hε, H⟩ := k3 ((κ₀ + 1) / 2) (by linarith) (by linarith)
  refine ⟨g, e, hg, h3, (κ₀ + 1) / 2, by linarith, ε, hε, fun d hd hdε a ha st st' k log hi hr => ?_⟩
  refine H _ _ (lifts_lift _ _) _ _ (liftsGN_lift _) (fun a a' c r A l1 l2 l3 l4 l5 l6 => ?_) d hd hdε a ha st st' k log hi hr
  have := C93_cholmod stale .empty addr (hs.jacobian a a' c r A l1 l2 l3 l4 l5 l6).1 (fun p hp => by cases hp) (le_refl (0 : ℝ))
  rwa [zero_add] at this

/-- The same with five fixed iterations, which divide the distance at least by `κ⁻⁵`. -/
example (stale : Pattern → ScipyCoo ℝ → ℝ → List ℝ → Py (List ℝ)) (addr : Nat) (unroll : Bool) :
    ∃ g e, Graph.make C [prior, plain] = .ok g ∧ Holds C [prior, plain] [x, y] (poseValue K (pose true)) e ∧ ∃ κ < 1, ∃ ε > 0,
      ∀ d : List ℝ, d.length = g.localLayout.dim → √(sqNorm d) < ε → ∀ a, e.manifoldRetract C ⟨d, g.localLayout⟩ = .ok a →
        ReturnsOnly ((⟨true, LinSolver.lift fun A b l _ => (cholmodSolve stale .empty addr A b l).1, unroll, 5⟩ : FixedIteration Ext).solve
          (fun t => (C t).lift) (g.ops F C).lift) a fun b =>
          ∃ d', d'.length = g.localLayout.dim ∧ e.manifoldRetract C ⟨d', g.localLayout⟩ = .ok b ∧ √(sqNorm d') ≤ κ ^ 5 * √(sqNorm d) := by
  obtain ⟨P, e, h1, h2, h3, h4, h5, h6, h7, h8⟩ := fit_setup
  obtain ⟨g, hg, h⟩ := C127_fixed_iteration F C K (fun _ => rfl) _ (by simp) P h1 h5 h6
  obtain ⟨g', hg', hs⟩ := sane_graph (F := F) (C := C) (lie_goodClasses (K := K) fun _ => rfl) h7 (by simp)
  rw [hg] at hg'; cases hg'
  obtain ⟨κ₀, k1, -, k3⟩ := h [x, y] (pose true) e (fun v hv => pose_valid true v (by simp at hv ⊢; tauto)) h3 (h4 g hg) h2 h8
    (1 / 100000) (by norm_num)
  obtain ⟨ε, hε, H⟩ := k3 ((κ₀ + 1) / 2) (by linarith) (by linarith)
  refine ⟨g, e, hg, h3, (κ₀ + 1) / 2, by linarith, ε, hε, fun d hd hdε a ha => ?_⟩
  refine H _ _ (lifts_lift _ _) _ (fun A b l _ => (cholmodSolve stale .empty addr A b l).1)
    (liftsSolver_lift fun A b l _ => (cholmodSolve stale .empty addr A b l).1) (fun a a' c r A l1 l2 l3 l4 l5 l6 => ?_) d hd hdε a ha 4 rfl
  have := C93_cholmod stale .empty addr (hs.jacobian a a' c r A l1 l2 l3 l4 l5 l6).1 (fun p hp => by cases hp) (le_refl (0 : ℝ))
  rwa [zero_add] at this

end PoseEx

end Jaxfg.Props
