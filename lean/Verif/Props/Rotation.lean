/- C117: graphs of rotations of the plane are linear problems in angles, up to whole turns. -/
import Verif.Lemmas.Rotation
import Verif.Lemmas.Closest
import Verif.Spec.Anchored
import Verif.Props.Accuracy

namespace Jaxfg.Props
open Spec
open Ext (fin)
open Matrix hiding vec

section
variable {F : Nat → FactorClass} {C : Ty → VarClass ℝ} {fs : List Factor} {m w : Factor → ℝ}

/-- **C117, costs.** The cost of a graph of rotations is at most the sum of the squared weighted differences between measured and actual
angles, whatever angles one describes the rotations by. It is that sum if every difference is less than half a turn. -/
theorem C117_cost (fs : List Factor) (m w : Factor → ℝ) (hT : ∀ f ∈ fs, MeasuresAngle F (m f) (w f) f) (θ : Var → ℝ) :
    ∃ c, HasCost F fs (fun v => turnBy (θ v)) c ∧ c ≤ angleCost fs m w θ ∧
      ((∀ f ∈ fs, |misfit (m f) θ f| < Real.pi) → c = angleCost fs m w θ) := by
  refine ⟨_, ⟨fun f => [w f * LieGroup.arctan2 (Real.sin (misfit (m f) θ f)) (Real.cos (misfit (m f) θ f))],
    fun f hf => measuresAngle_residual (hT f hf) θ, rfl⟩, ?_, fun h => ?_⟩
  · unfold angleCost
    apply List.sum_le_sum
    intro f _
    have := arctan2_le (misfit (m f) θ f)
    have := sq_le_sq.2 this
    simp only [sqNorm, List.map_cons, List.map_nil, List.sum_cons, List.sum_nil, add_zero]
    nlinarith [sq_nonneg (w f)]
  · unfold angleCost
    congr 1
    refine List.map_congr_left fun f hf => ?_
    show sqNorm [_] = _
    rw [arctan2_misfit (h f hf)]
    simp [sqNorm, sq]

/-- **C117, the optimum.** Some angles have the least sum. If the measurements determine the angles, all others that have it are
the same. -/
theorem C117_optimum (fs : List Factor) (m w : Factor → ℝ) (vars : List Var) (σ : ℝ) (hσ : 0 < σ) (hD : DeterminesAngles fs w vars σ) :
    ∃ y, (∀ z, angleCost fs m w y ≤ angleCost fs m w z) ∧
      ∀ y', (∀ z, angleCost fs m w y' ≤ angleCost fs m w z) → ∀ v ∈ vars, y' v = y v := by
  obtain ⟨y, hy⟩ := angleCost_least (fs := fs) m w
  refine ⟨y, hy, fun y' hy' v hv => ?_⟩
  have h1 := angleCost_growth hD hy y'
  have h2 := hy' y
  have h3 : angleDist vars y' y ≤ 0 := by
    by_contra hc
    push Not at hc
    nlinarith [mul_pos hσ hc]
  have h4 : (y' v - y v) ^ 2 ≤ angleDist vars y' y := by
    refine List.single_le_sum (fun x hx => ?_) _ (List.mem_map.2 ⟨v, hv, rfl⟩)
    obtain ⟨u, -, rfl⟩ := List.mem_map.1 hx
    positivity
  nlinarith [sq_nonneg (y' v - y v)]

theorem turnBy_add_turn {s t : ℝ} (hc : Real.cos s = Real.cos t) (hs : Real.sin s = Real.sin t) : turnBy s = turnBy t := by
  rw [turnBy, turnBy, hc, hs]

theorem _root_.Jaxfg.Spec.MeasuresAngle.same {m m' w : ℝ} {f : Factor} (h : MeasuresAngle F m w f) (ht : turnBy m = turnBy m') :
    MeasuresAngle F m' w f := by
  cases h with
  | prior cls v noise hF hw => rw [ht]; exact .prior cls v noise hF hw
  | between cls a b noise f hF hw hf => rw [ht] at hf; exact .between cls a b noise f hF hw hf

/-- **C117, the start.** Rotations with a cost below `π²` times the square of every weight can be described by angles such that all
angles with no greater sum miss every measurement by less than half a turn. -/
theorem C117_start (fs : List Factor) (m₀ w : Factor → ℝ) (hT : ∀ f ∈ fs, MeasuresAngle F (m₀ f) (w f) f) (vars : List Var)
    (val : Var → Value ℝ) (hval : ∀ v ∈ vars, ∃ c s : ℝ, c ^ 2 + s ^ 2 = 1 ∧ val v = LieGroup.so2.value [c, s])
    (hvars : ∀ v, v ∈ vars ↔ ∃ f ∈ fs, v ∈ f.vars) (c : ℝ) (hc : HasCost F fs val c)
    (hlow : ∀ f ∈ fs, c < w f ^ 2 * Real.pi ^ 2) :
    ∃ (m : Factor → ℝ) (θ : Var → ℝ), (∀ v ∈ vars, val v = turnBy (θ v)) ∧ (∀ f ∈ fs, MeasuresAngle F (m f) (w f) f) ∧
      angleCost fs m w θ = c ∧ WithinHalfTurn fs m w θ := by
  have hθ : ∀ v, ∃ t : ℝ, v ∈ vars → val v = turnBy t := by
    intro v
    by_cases hv : v ∈ vars
    · obtain ⟨c, s, h1, h2⟩ := hval v hv
      have := LieGroup.cos_sin_arctan2 h1
      exact ⟨LieGroup.arctan2 s c, fun _ => by rw [h2, turnBy, this.1, this.2]⟩
    · exact ⟨0, fun h => absurd h hv⟩
  choose θ hθ using hθ
  obtain ⟨e, he⟩ : ∃ e : Factor → ℝ, e = fun f => LieGroup.arctan2 (Real.sin (misfit (m₀ f) θ f)) (Real.cos (misfit (m₀ f) θ f)) := ⟨_, rfl⟩
  have hcs : ∀ f, Real.cos (e f) = Real.cos (misfit (m₀ f) θ f) ∧ Real.sin (e f) = Real.sin (misfit (m₀ f) θ f) := by
    intro f
    rw [he]
    exact LieGroup.cos_sin_arctan2 (Real.cos_sq_add_sin_sq _)
  have hmis : ∀ f ∈ fs, misfit (m₀ f + (e f - misfit (m₀ f) θ f)) θ f = e f := by
    intro f hf
    rcases measuresAngle_vars (hT f hf) with ⟨v, hv⟩ | ⟨a, b, hv⟩ <;> simp only [misfit, hv] <;> ring
  have hturn : ∀ f, turnBy (m₀ f + (e f - misfit (m₀ f) θ f)) = turnBy (m₀ f) := by
    intro f
    obtain ⟨h1, h2⟩ := hcs f
    have k1 : Real.cos (e f - misfit (m₀ f) θ f) = 1 := by
      rw [Real.cos_sub, h1, h2, ← sq, ← sq, Real.cos_sq_add_sin_sq]
    have k2 : Real.sin (e f - misfit (m₀ f) θ f) = 0 := by
      rw [Real.sin_sub, h1, h2]; ring
    apply turnBy_add_turn
    · rw [Real.cos_add, k1, k2]; ring
    · rw [Real.sin_add, k1, k2]; ring
  have hcost : angleCost fs (fun f => m₀ f + (e f - misfit (m₀ f) θ f)) w θ = c := by
    obtain ⟨r, hr, rfl⟩ := hc
    unfold angleCost
    congr 1
    refine List.map_congr_left fun f hf => ?_
    have h1 : whitenedAt F (fun v => turnBy (θ v)) f = .ok (r f) := by
      rw [← hr f hf]
      unfold whitenedAt
      rw [List.map_congr_left fun v hv => (hθ v ((hvars v).2 ⟨f, hf, hv⟩)).symm]
    rw [measuresAngle_residual (hT f hf)] at h1
    rw [hmis f hf, ← Except.ok.inj h1, he]
    simp [sqNorm, sq]
  refine ⟨fun f => m₀ f + (e f - misfit (m₀ f) θ f), θ, fun v hv => hθ v hv, fun f hf => ?_, hcost, fun θ' hle f hf => ?_⟩
  · exact (hT f hf).same (hturn f).symm
  · rw [hcost] at hle
    have h1 : (w f * misfit (m₀ f + (e f - misfit (m₀ f) θ f)) θ' f) ^ 2 ≤ angleCost fs (fun f => m₀ f + (e f - misfit (m₀ f) θ f)) w θ' := by
      refine List.single_le_sum (fun x hx => ?_) _ (List.mem_map.2 ⟨f, hf, rfl⟩)
      obtain ⟨u, -, rfl⟩ := List.mem_map.1 hx
      positivity
    have h2 := hlow f hf
    have h3 : w f ^ 2 * misfit (m₀ f + (e f - misfit (m₀ f) θ f)) θ' f ^ 2 < w f ^ 2 * Real.pi ^ 2 := by
      rw [← mul_pow]; linarith
    have h4 := lt_of_mul_lt_mul_left h3 (sq_nonneg _)
    exact abs_lt_of_sq_lt_sq h4 Real.pi_pos.le

theorem anchored_zero {δ : Var → ℝ} (h : ∀ f ∈ fs, misfit 0 δ f = 0) {v : Var} (hv : Anchored fs v) : δ v = 0 := by
  induction hv with
  | prior hf hv => have := h _ hf; simp only [misfit, hv] at this; linarith
  | forward hf hv _ ih => have := h _ hf; simp only [misfit, hv] at this; linarith
  | backward hf hv _ ih => have := h _ hf; simp only [misfit, hv] at this; linarith

/-- **C117, determined angles.** Measurements with weights other than zero determine the angles if every variable has a prior or is
connected to one that has. -/
theorem C117_anchored (fs : List Factor) (w : Factor → ℝ) (hw : ∀ f ∈ fs, w f ≠ 0) (vars : List Var) (hn : vars.Nodup)
    (hvars : ∀ v, v ∈ vars ↔ ∃ f ∈ fs, v ∈ f.vars) (hA : ∀ v ∈ vars, Anchored fs v) : ∃ σ, 0 < σ ∧ DeterminesAngles fs w vars σ := by
  classical
  let ext : EuclideanSpace ℝ (Fin vars.length) → Var → ℝ := fun x v => ∑ i, if vars[i] = v then x i else 0
  have hext : ∀ x (i : Fin vars.length), ext x vars[i] = x i := by
    intro x i
    show (∑ j : Fin vars.length, if vars[j] = vars[i] then x j else 0) = x i
    rw [Finset.sum_eq_single i]
    · simp
    · intro j _ hj
      rw [if_neg]
      intro he
      exact hj (Fin.ext ((hn.getElem_inj_iff (hi := j.2) (hj := i.2)).1 he))
    · simp
  let L : EuclideanSpace ℝ (Fin vars.length) →ₗ[ℝ] EuclideanSpace ℝ (Fin fs.length) :=
    { toFun := fun x => WithLp.toLp 2 fun i => w fs[i] * misfit 0 (ext x) fs[i]
      map_add' := fun x y => by
        have he : ∀ v, ext (x + y) v = ext x v + ext y v := fun v => by
          simp only [ext, ← Finset.sum_add_distrib]
          exact Finset.sum_congr rfl fun i _ => by split <;> simp
        ext i
        simp only [PiLp.add_apply]
        unfold misfit
        split <;> (try simp only [he]) <;> ring
      map_smul' := fun t x => by
        have he : ∀ v, ext (t • x) v = t * ext x v := fun v => by
          simp only [ext, Finset.mul_sum]
          exact Finset.sum_congr rfl fun i _ => by split <;> simp
        ext i
        simp only [PiLp.smul_apply, smul_eq_mul, RingHom.id_apply]
        unfold misfit
        split <;> (try simp only [he]) <;> ring }
  have hker : LinearMap.ker L = ⊥ := by
    rw [LinearMap.ker_eq_bot']
    intro x hx
    have hz : ∀ f ∈ fs, misfit 0 (ext x) f = 0 := by
      intro f hf
      obtain ⟨i, hi, rfl⟩ := List.getElem_of_mem hf
      have := congrArg (fun z : EuclideanSpace ℝ (Fin fs.length) => z ⟨i, hi⟩) hx
      have h2 : w fs[i] * misfit 0 (ext x) fs[i] = 0 := this
      exact (mul_eq_zero.1 h2).resolve_left (hw _ hf)
    ext i
    rw [← hext x i]
    exact anchored_zero hz (hA _ (List.getElem_mem i.2))
  obtain ⟨K, hK, hL⟩ := LinearMap.exists_antilipschitzWith L hker
  have hKp : (0 : ℝ) < K := by exact_mod_cast hK
  refine ⟨1 / (K : ℝ) ^ 2, by positivity, fun θ θ' => ?_⟩
  let x : EuclideanSpace ℝ (Fin vars.length) := WithLp.toLp 2 fun i => θ vars[i] - θ' vars[i]
  have hx : ∀ v ∈ vars, ext x v = θ v - θ' v := by
    intro v hv
    obtain ⟨i, hi, rfl⟩ := List.getElem_of_mem hv
    exact hext x ⟨i, hi⟩
  have h1 : ‖x‖ ^ 2 = angleDist vars θ θ' := by
    rw [EuclideanSpace.norm_sq_eq]
    unfold angleDist
    rw [← Fin.sum_univ_fun_getElem]
    refine Finset.sum_congr rfl fun i _ => ?_
    rw [Real.norm_eq_abs, sq_abs]
    rfl
  have h2 : ‖L x‖ ^ 2 = (fs.map fun f => (w f * (misfit 0 θ f - misfit 0 θ' f)) ^ 2).sum := by
    rw [EuclideanSpace.norm_sq_eq, ← Fin.sum_univ_fun_getElem]
    refine Finset.sum_congr rfl fun i _ => ?_
    rw [Real.norm_eq_abs, sq_abs]
    show (w fs[i] * misfit 0 (ext x) fs[i]) ^ 2 = _
    have hf : fs[i] ∈ fs := List.getElem_mem i.2
    rw [misfit_congr (fun v hv => hx v ((hvars v).2 ⟨_, hf, hv⟩))]
    simp only [Fin.getElem_fin]
    congr 2
    rcases h : (fs[i.1]).vars with _ | ⟨a, _ | ⟨b, _ | ⟨c, l⟩⟩⟩ <;> simp only [misfit, h] <;> ring
  have h3 : ‖x‖ ≤ K * ‖L x‖ := by
    have := hL.le_mul_dist x 0
    rwa [map_zero, dist_zero_right, dist_zero_right] at this
  rw [← h1, ← h2, div_mul_eq_mul_div, one_mul, div_le_iff₀ (by positivity)]
  have := pow_le_pow_left₀ (norm_nonneg _) h3 2
  rw [mul_pow] at this
  linarith

section
variable (hC : GoodClasses C) (hne : fs ≠ []) (hT : ∀ f ∈ fs, MeasuresAngle F (m f) (w f) f)
  (hK : ∀ f ∈ fs, ∀ v ∈ f.vars, C v.ty = SO2Variable) {g : Graph} (hg : Graph.make C fs = .ok g)
  {σ : ℝ} (hσ : 0 < σ) (hD : DeterminesAngles fs w (Graph.variablesOf fs) σ)
include hC hne hT hK hg hσ hD

/-- Steps, however the loop ends. -/
theorem rotation_runs {μ : ℝ → ℝ} (hμ : 0 ≤ μ 0) {L : LinSolver ℝ}
    (hL : AllJacobians C (g.ops F C) (Graph.variablesOf fs) (DampedUpTo μ L)) {done : State Ext → Bool}
    {step : State Ext → Py (State Ext × List (Msg Ext))}
    (hstep : ∀ (p : State ℝ) p' log, step (p.map fin) = .ok (p', log) → ∃ A ATr delta b c r dn, (g.ops F C).jacobian p.assignments p.residual = .ok A ∧
      A.T.matmul p.residual = .ok ATr ∧ L A (ATr.map fun x => -x) 0 p.iterations = .ok delta ∧
      p.assignments.manifoldRetract C ⟨delta, g.localLayout⟩ = .ok b ∧ g.computeCost F C b = .ok (c, r) ∧
      p' = State.map fin ⟨p.iterations + 1, b, c, r, dn⟩)
    {θ : Var → ℝ} (hθ : WithinHalfTurn fs m w θ) {a : Assign ℝ} (h : Holds C fs (Graph.variablesOf fs) (fun v => turnBy (θ v)) a)
    (hlay : a.layout = g.layout) {c : ℝ} {r : List ℝ}
    (hc : g.computeCost F C a = .ok (c, r)) {st : State Ext} {k : Nat} {log : List (Msg Ext)}
    (hr : Runs done step k (State.map fin ⟨0, a, c, r, false⟩) st log) :
    ∃ (q : State ℝ) (θ' : Var → ℝ), st = q.map fin ∧ q.iterations = k ∧ GoodState C (g.ops F C) (Graph.variablesOf fs) q ∧
      g.computeCost F C q.assignments = .ok (q.cost, q.residual) ∧
      Holds C fs (Graph.variablesOf fs) (fun v => turnBy (θ' v)) q.assignments ∧ angleCost fs m w θ' ≤ angleCost fs m w θ ∧
      ∀ y, angleCost fs m w θ' - angleCost fs m w y ≤ ((μ 0 / (σ + μ 0)) ^ 2) ^ k * (angleCost fs m w θ - angleCost fs m w y) := by
  obtain ⟨g', hg', hS⟩ := sane_graph (F := F) hC (fun f hf => (measuresAngle_wf (hT f hf) (hK f hf)).1) hne
  rw [hg] at hg'; cases hg'
  generalize hst : State.map fin ⟨0, a, c, r, false⟩ = s₀ at hr
  induction hr with
  | refl s =>
    exact ⟨_, θ, hst.symm, rfl, GoodState.start h.assignment hlay hc _ _, hc, h, le_rfl, fun y => by simp⟩
  | step h1 h2 h3 ih =>
    obtain ⟨q, θ₁, rfl, hq, hgood, hcur, hh, hle, hgap⟩ := ih hst
    obtain ⟨A, ATr, d, b, c, r, dn, hA, hT', hx, hb, hc', rfl⟩ := hstep _ _ _ h3
    obtain ⟨hwf, hdim⟩ := hgood.jac hS hA
    have hneg : A.T.matmul (q.residual.map fun x => -x) = .ok (ATr.map fun x => -x) := matmul_neg (cooWF_T hwf) hT'
    obtain ⟨-, hbl, -⟩ := descent_ok hwf hneg
    obtain ⟨hdl, D, hDp, hDμ, heq⟩ := hgood.all hL hA _ 0 _ d hbl le_rfl hx
    obtain ⟨θ₂, k1, k2⟩ := rotation_step hC hne hT hK hg hσ hμ hD hh hgood.layout (hθ θ₁ hle) hcur hA hneg hdl hDp hDμ heq hb
    have hdec : angleCost fs m w θ₂ ≤ angleCost fs m w θ₁ := by
      have := k2 θ₁
      rw [sub_self, mul_zero] at this
      linarith
    refine ⟨_, θ₂, rfl, by rw [← hq], hgood.next hb hc' true rfl rfl rfl, hc', k1, hdec.trans hle, fun y => ?_⟩
    refine (k2 y).trans ?_
    rw [pow_succ' ((μ 0 / (σ + μ 0)) ^ 2), mul_assoc]
    exact mul_le_mul_of_nonneg_left (hgap y) (sq_nonneg _)
end

theorem DeterminesAngles.perm {vs ws : List Var} {σ : ℝ} (h : vs.Perm ws) (hD : DeterminesAngles fs w vs σ) : DeterminesAngles fs w ws σ := by
  intro θ θ'
  have := hD θ θ'
  unfold angleDist at this ⊢
  rwa [(h.map _).sum_eq] at this

/-- **C117.** On a graph of rotations whose measurements determine the angles, Gauss-Newton from rotations as in `C117_start` does what it
does on linear problems, in angles: the cost stays the sum of the squared weighted differences of angles, what it exceeds the least sum by
shrinks by the factor `(μ / (σ + μ))²` with every step, where `μ` is the damping, and the angles approach the ones with the least sum. The
fixed-iteration solver does so with the number of steps it is given. -/
theorem C117_solve (hC : GoodClasses C) (fs : List Factor) (hne : fs ≠ []) (m w : Factor → ℝ) (hT : ∀ f ∈ fs, MeasuresAngle F (m f) (w f) f)
    (hK : ∀ f ∈ fs, ∀ v ∈ f.vars, C v.ty = SO2Variable) (vars : List Var) (σ : ℝ) (hσ : 0 < σ) (hD : DeterminesAngles fs w vars σ)
    (μ : ℝ → ℝ) (hμ : 0 ≤ μ 0) :
    ∃ g, Graph.make C fs = .ok g ∧ ∀ CE gE, Lifts CE gE C (g.ops F C) → ∀ θ, WithinHalfTurn fs m w θ →
      ∀ a, Holds C fs vars (fun v => turnBy (θ v)) a →
      (∀ sE s, LiftsGN sE s → AllJacobians C (g.ops F C) (Graph.variablesOf fs) (TotalSolver s.linear) →
        AllJacobians C (g.ops F C) (Graph.variablesOf fs) (DampedUpTo μ s.linear) →
        ∃ (o : Assign ℝ) (log : List (Msg Ext)) (θ' : Var → ℝ) (k : Nat), o.layout = a.layout ∧ Holds C fs vars (fun v => turnBy (θ' v)) o ∧
          (∀ fuel : Nat, max 1 s.maxIterations ≤ fuel → sE.solve CE gE fuel (a.map fin) = .ok (some (o.map fin, log))) ∧
          1 ≤ k ∧ (sE.verbose = true → ∃ l, log = l ++ [.terminated k (fin (angleCost fs m w θ'))]) ∧
          HasCost F fs (fun v => turnBy (θ' v)) (angleCost fs m w θ') ∧ Nears fs m w vars σ ((μ 0 / (σ + μ 0)) ^ 2) k θ θ') ∧
      ∀ (sE : FixedIteration Ext) L, LiftsSolver sE.linear L → AllJacobians C (g.ops F C) (Graph.variablesOf fs) (TotalSolver L) →
        AllJacobians C (g.ops F C) (Graph.variablesOf fs) (DampedUpTo μ L) → a.layout = g.layout → ∀ n : Nat, 1 ≤ n → sE.iterations = n →
        ∃ (o : Assign ℝ) (log : List (Msg Ext)) (θ' : Var → ℝ), o.layout = a.layout ∧ Holds C fs vars (fun v => turnBy (θ' v)) o ∧
          (∀ fuel : Nat, n ≤ fuel → sE.solve CE gE fuel (a.map fin) = .ok (some (o.map fin, log))) ∧
          HasCost F fs (fun v => turnBy (θ' v)) (angleCost fs m w θ') ∧ Nears fs m w vars σ ((μ 0 / (σ + μ 0)) ^ 2) n θ θ' := by
  have hfs : ∀ f ∈ fs, FactorWF F C f := fun f hf => (measuresAngle_wf (hT f hf) (hK f hf)).1
  have hpos : ∀ f ∈ fs, ∀ v ∈ f.vars, 0 < (C v.ty).paramDim := fun f hf v hv => by rw [hK f hf v hv]; decide
  obtain ⟨g, hg, hret⟩ := C72_solve_returns F C hC fs hne hfs hpos
  obtain ⟨g', hg', hG⟩ := graph_ok (F := F) hfs hne
  rw [hg] at hg'; cases hg'
  refine ⟨g, hg, fun CE gE hl θ hθ a h => ?_⟩
  have hs := variablesOf_spec fs
  have hv : ∀ v, v ∈ vars ↔ v ∈ Graph.variablesOf fs := fun v => by rw [h.sameVars, hs.2]
  have hperm : vars.Perm (Graph.variablesOf fs) := (List.perm_ext_iff_of_nodup h.assignment.1 hs.1).2 hv
  have hD' := DeterminesAngles.perm hperm hD
  have hp : ∀ v ∈ vars, 0 < (C v.ty).paramDim := fun v hv => by
    obtain ⟨f, hf, hv⟩ := (h.sameVars v).1 hv; exact hpos f hf v hv
  have hal : a.layout = Layout.make C vars false := by rw [h.assignment.2.1, h.isGlobal]
  have cost : ∀ θ', angleCost fs m w θ' ≤ angleCost fs m w θ → HasCost F fs (fun v => turnBy (θ' v)) (angleCost fs m w θ') := by
    intro θ' hle
    obtain ⟨c, h1, -, h3⟩ := C117_cost fs m w hT θ'
    rwa [h3 (hθ θ' hle)] at h1
  obtain ⟨gn, -, -, fi⟩ := hret CE gE hl vars a h.assignment h.isGlobal h.sameVars
  constructor
  · intro sE s hS hTS hDU
    obtain ⟨o, log, ho, hol, hsolve⟩ := gn sE s hS hTS
    obtain ⟨b₀, u1, u2, u3⟩ := (stores_of_holds hC h).update hs.1 hv hp
    rw [← hG.layout] at u1 u2
    obtain ⟨b0, st, st', l, h1, h2, h3, h4, h5⟩ := baseSolve_some.1 (hsolve (max 1 s.maxIterations).toNat (by omega))
    rw [hl.layout, hl.updateStorageLayout] at h1
    obtain ⟨b1, hb1, rfl⟩ := py_map_eq_ok.1 h1
    have hb1' : a.updateStorageLayout C g.layout = .ok b1 := hb1
    rw [u1] at hb1'; cases hb1'
    obtain ⟨k, -, hr, hd⟩ := runs_of_whileLoop h3
    obtain ⟨c, r, hc, rfl⟩ := (initState_fin hl).1 h2
    have hk : 1 ≤ k := by
      cases k with
      | zero => cases hr; cases hd
      | succ k => omega
    obtain ⟨q, θ', rfl, q1, q2, q3, q4, q5, q6⟩ := rotation_runs hC hne hT hK hg hσ hD' hμ hDU (fun p p' log hst => by
      obtain ⟨A, ATr, d, b, c, r, conv, hA, hT, hx, hb, hc, -, e, -⟩ := (gnStep_fin hl hS).1 hst
      exact ⟨A, ATr, d, b, c, r, _, hA, hT, hx, hb, hc, e⟩) hθ (u3.holds hs.2) u2 hc hr
    have hbs := stores_of_holds hC q4
    obtain ⟨o', v1, v2, v3⟩ := hbs.update h.assignment.1 (fun v => (hv v).symm) (fun v hv' => hp v ((hv v).2 hv'))
    rw [← hal] at v1
    have h4'' : (q.assignments.map fin).updateStorageLayout CE a.layout = .ok (o.map fin) := h4
    rw [hl.updateStorageLayout, v1] at h4''
    have hoo : o' = o := assign_map_fin (Except.ok.inj h4'')
    subst hoo
    have hcost' : q.cost = angleCost fs m w θ' := by
      obtain ⟨r', hr', e⟩ := cost θ' q5
      have := cost_ok F C hC hne hfs hG q4 hr'
      rw [q3] at this
      rw [(Prod.mk.inj (Except.ok.inj this)).1, ← e]
    refine ⟨o', log, θ', k, hol, v3.holds h.sameVars, hsolve, hk, ?_, cost θ' q5, q6, fun y hy => angleCost_growth hD hy θ'⟩
    intro hverb
    refine ⟨l, ?_⟩
    rw [h5, hverb]
    show l ++ [Msg.terminated q.iterations (fin q.cost)] = _
    rw [q1, hcost']
  · intro sE L hS hTS hDU hlay n hn1 hn
    have h' : Holds C fs (Graph.variablesOf fs) (fun v => turnBy (θ v)) a := by
      refine ⟨⟨hs.1, ?_, h.assignment.2.2⟩, h.isGlobal, hs.2, fun v hv' => h.values v ((hv v).2 hv')⟩
      rw [hlay, hG.layout]; rfl
    obtain ⟨o, log, ho, hol, hsolve⟩ := fi sE L hS hTS hlay
    have hsolve' : ∀ fuel : Nat, n ≤ fuel → sE.solve CE gE fuel (a.map fin) = .ok (some (o.map fin, log)) :=
      fun fuel hf => hsolve fuel (by rw [hn]; omega)
    obtain ⟨st, st', l, h1, h2, h3, h4⟩ := fixedSolve_some.1 (hsolve' n le_rfl)
    obtain ⟨c, r, hc, rfl⟩ := (initState_fin hl).1 h1
    have hloop : forLoop (sE.step CE gE) n (State.map fin ⟨0, a, c, r, false⟩) = .ok (st', l) := by
      cases hu : sE.unroll with
      | true =>
        rw [hu, if_pos rfl, hn] at h2
        obtain ⟨p, hp1, hp2⟩ := py_map_eq_ok.1 h2
        cases hp2
        exact hp1
      | false =>
        rw [hu, if_neg (by simp)] at h2
        obtain ⟨m, rfl⟩ : ∃ m, n = m + 1 := ⟨n - 1, by omega⟩
        rw [whileLoop_eq_forLoop sE m (m + 1) _ rfl (by rw [hn]; show ((0 : Nat) : Int) + _ = _; push_cast; ring) le_rfl] at h2
        obtain ⟨p, hp1, hp2⟩ := py_map_eq_ok.1 h2
        cases hp2
        exact hp1
    obtain ⟨q, θ', rfl, q1, q2, q3, q4, q5, q6⟩ := rotation_runs hC hne hT hK hg hσ hD' hμ hDU (fun p p' log hst => by
      obtain ⟨A, ATr, d, b, c, r, hA, hT, hx, hb, hc, e, -⟩ := (fixedStep_fin hl hS).1 hst
      exact ⟨A, ATr, d, b, c, r, _, hA, hT, hx, hb, hc, e⟩) hθ h' hlay hc (runs_of_forLoop.1 hloop)
    have hoo : o = q.assignments := assign_map_fin h3
    subst hoo
    exact ⟨_, log, θ', hol, ⟨ho, by rw [hol]; exact h.isGlobal, h.sameVars, fun v hv' => q4.values v ((hv v).1 hv')⟩, hsolve',
      cost θ' q5, q6, fun y hy => angleCost_growth hD hy θ'⟩
end

/-! ### Three rotations in a ring -/

namespace Ring3

noncomputable def F : Nat → FactorClass := fun n => if n = 0 then priorFactorClass .so2 else betweenFactorClass .so2
noncomputable def C : Ty → VarClass ℝ := fun _ => SO2Variable
def v0 : Var := ⟨0, 0⟩
def v1 : Var := ⟨0, 1⟩
def v2 : Var := ⟨0, 2⟩
noncomputable def f0 : Factor := PriorFactor.make 0 v0 (turnBy 0) (.diagonal ⟨[1], [1]⟩)
noncomputable def f1 : Factor := ⟨1, [v0, v1], .diagonal ⟨[1], [1]⟩, (turnBy 0).leaves⟩
noncomputable def f2 : Factor := ⟨1, [v1, v2], .diagonal ⟨[1], [1]⟩, (turnBy 0).leaves⟩
noncomputable def f3 : Factor := ⟨1, [v2, v0], .diagonal ⟨[1], [1]⟩, (turnBy 0).leaves⟩
/-- The first rotation has the prior identity, and each was measured to be the same as the next. -/
noncomputable def fs : List Factor := [f0, f1, f2, f3]

/-- Thirds of a turn. -/
noncomputable def thirds : Var → ℝ := fun v => v.uid * (2 * Real.pi / 3)

/-- Angles of the measurements: from the last rotation back to the first, a whole turn. -/
noncomputable def m : Factor → ℝ := fun f => if f.vars = [v2, v0] then -(2 * Real.pi) else 0

theorem classes : GoodClasses C := lie_goodClasses (K := fun _ => .so2) fun _ => rfl

theorem measures : ∀ f ∈ fs, MeasuresAngle F (m f) 1 f := by
  have ht : turnBy (-(2 * Real.pi)) = turnBy 0 := by simp [turnBy]
  intro f hf
  simp only [fs, List.mem_cons, List.not_mem_nil, or_false] at hf
  rcases hf with rfl | rfl | rfl | rfl
  · rw [show m f0 = 0 by simp [m, f0, PriorFactor.make]]
    exact .prior 0 v0 _ rfl rfl
  · rw [show m f1 = 0 by simp [m, f1, v0, v2]]
    exact .between 1 v0 v1 (.diagonal ⟨[1], [1]⟩) _ rfl rfl rfl
  · rw [show m f2 = 0 by simp [m, f2, v1, v2]]
    exact .between 1 v1 v2 (.diagonal ⟨[1], [1]⟩) _ rfl rfl rfl
  · refine MeasuresAngle.same (m := 0) (.between 1 v2 v0 (.diagonal ⟨[1], [1]⟩) _ rfl rfl rfl) ?_
    rw [show m f3 = -(2 * Real.pi) by simp [m, f3], ht]

theorem m0 : m f0 = 0 := by simp [m, f0, PriorFactor.make]
theorem m1 : m f1 = 0 := by simp [m, f1, v0, v2]
theorem m2 : m f2 = 0 := by simp [m, f2, v1, v2]
theorem m3 : m f3 = -(2 * Real.pi) := by simp [m, f3]

theorem cost (θ : Var → ℝ) : angleCost fs m (fun _ => 1) θ =
    θ v0 ^ 2 + (θ v1 - θ v0) ^ 2 + (θ v2 - θ v1) ^ 2 + (θ v0 - θ v2 + 2 * Real.pi) ^ 2 := by
  simp only [angleCost, fs, List.map_cons, List.map_nil, List.sum_cons, List.sum_nil, m0, m1, m2, m3]
  simp only [misfit, f0, f1, f2, f3, PriorFactor.make]
  ring

theorem cost_thirds : angleCost fs m (fun _ => 1) thirds = 4 * Real.pi ^ 2 / 3 := by
  rw [cost]
  simp [thirds, v0, v1, v2]
  ring

/-- Going round the ring, some measurements have to be missed. -/
theorem low {θ : Var → ℝ} (h : angleCost fs m (fun _ => 1) θ ≤ angleCost fs m (fun _ => 1) thirds) :
    θ v0 = 0 ∧ θ v1 = 2 * Real.pi / 3 ∧ θ v2 = 4 * Real.pi / 3 := by
  rw [cost_thirds, cost] at h
  have h0 : θ v0 ^ 2 + (θ v1 - θ v0 - 2 * Real.pi / 3) ^ 2 + (θ v2 - θ v1 - 2 * Real.pi / 3) ^ 2 +
      (θ v0 - θ v2 + 2 * Real.pi - 2 * Real.pi / 3) ^ 2 ≤ 0 := by linarith
  have z : ∀ {x : ℝ}, x ^ 2 ≤ 0 → x = 0 := fun h => pow_eq_zero_iff (two_ne_zero) |>.1 (le_antisymm h (sq_nonneg _))
  have a0 := sq_nonneg (θ v0)
  have a1 := sq_nonneg (θ v1 - θ v0 - 2 * Real.pi / 3)
  have a2 := sq_nonneg (θ v2 - θ v1 - 2 * Real.pi / 3)
  have a3 := sq_nonneg (θ v0 - θ v2 + 2 * Real.pi - 2 * Real.pi / 3)
  have b0 := z (by linarith : θ v0 ^ 2 ≤ 0)
  have b1 := z (by linarith : (θ v1 - θ v0 - 2 * Real.pi / 3) ^ 2 ≤ 0)
  have b2 := z (by linarith : (θ v2 - θ v1 - 2 * Real.pi / 3) ^ 2 ≤ 0)
  refine ⟨b0, ?_, ?_⟩ <;> linarith

theorem within : WithinHalfTurn fs m (fun _ => 1) thirds := by
  intro θ h f hf
  obtain ⟨h0, h1, h2⟩ := low h
  have hpi := Real.pi_pos
  simp only [fs, List.mem_cons, List.not_mem_nil, or_false] at hf
  rcases hf with rfl | rfl | rfl | rfl
  · simp [misfit, m, f0, PriorFactor.make, h0, hpi]
  · rw [show misfit (m f1) θ f1 = -(2 * Real.pi / 3) by rw [m1]; simp only [misfit, f1, h0, h1]; ring, abs_neg, abs_of_pos (by positivity)]
    linarith
  · rw [show misfit (m f2) θ f2 = -(2 * Real.pi / 3) by rw [m2]; simp only [misfit, f2, h1, h2]; ring, abs_neg, abs_of_pos (by positivity)]
    linarith
  · rw [show misfit (m f3) θ f3 = -(2 * Real.pi / 3) by rw [m3]; simp only [misfit, f3, h0, h2]; ring, abs_neg, abs_of_pos (by positivity)]
    linarith

theorem anchored : ∀ v ∈ [v0, v1, v2], Anchored fs v := by
  have a0 : Anchored fs v0 := .prior (f := f0) (by simp [fs]) rfl
  have a1 : Anchored fs v1 := .forward (f := f1) (by simp [fs]) rfl a0
  have a2 : Anchored fs v2 := .forward (f := f2) (by simp [fs]) rfl a1
  intro v hv
  simp only [List.mem_cons, List.not_mem_nil, or_false] at hv
  rcases hv with rfl | rfl | rfl <;> assumption

theorem same : ∀ v, v ∈ [v0, v1, v2] ↔ ∃ f ∈ fs, v ∈ f.vars := by
  intro v
  simp [fs, f0, f1, f2, f3, PriorFactor.make]
  tauto

end Ring3

/-- **C117, not the best rotations.** Three rotations in a ring, each measured to be the same as the next, and the first measured to be
the identity. All measurements are met by identities, but from thirds of a turn Gauss-Newton does not move: it returns the initial
rotations, which have cost `4π²/3`. -/
theorem C117_not_global (μ : ℝ → ℝ) (hμ : 0 ≤ μ 0) :
    HasCost Ring3.F Ring3.fs (fun _ => turnBy 0) 0 ∧ HasCost Ring3.F Ring3.fs (fun v => turnBy (Ring3.thirds v)) (4 * Real.pi ^ 2 / 3) ∧
    (∃ a, Holds Ring3.C Ring3.fs [Ring3.v0, Ring3.v1, Ring3.v2] (fun v => turnBy (Ring3.thirds v)) a) ∧
    ∃ g, Graph.make Ring3.C Ring3.fs = .ok g ∧ ∀ CE gE, Lifts CE gE Ring3.C (g.ops Ring3.F Ring3.C) →
      ∀ a, Holds Ring3.C Ring3.fs [Ring3.v0, Ring3.v1, Ring3.v2] (fun v => turnBy (Ring3.thirds v)) a → ∀ sE s, LiftsGN sE s →
        AllJacobians Ring3.C (g.ops Ring3.F Ring3.C) (Graph.variablesOf Ring3.fs) (TotalSolver s.linear) →
        AllJacobians Ring3.C (g.ops Ring3.F Ring3.C) (Graph.variablesOf Ring3.fs) (DampedUpTo μ s.linear) →
        ∃ log : List (Msg Ext), ∀ fuel : Nat, max 1 s.maxIterations ≤ fuel → sE.solve CE gE fuel (a.map fin) = .ok (some (a.map fin, log)) := by
  refine ⟨?_, ?_, ?_, ?_⟩
  · obtain ⟨c, h1, h2, h3⟩ := C117_cost (F := Ring3.F) Ring3.fs (fun _ => 0) (fun _ => 1) (fun f hf => by
      have := Ring3.measures f hf
      refine this.same ?_
      unfold Ring3.m
      split <;> simp [turnBy]) fun _ => 0
    have hz : ∀ f, misfit 0 (fun _ => 0) f = 0 := by intro f; unfold misfit; split <;> simp
    have h0 : angleCost Ring3.fs (fun _ => 0) (fun _ => 1) (fun _ => 0) = 0 := by
      simp [angleCost, hz]
    rwa [h3 (fun f _ => by simp [hz, Real.pi_pos]), h0] at h1
  · obtain ⟨c, h1, -, h3⟩ := C117_cost (F := Ring3.F) Ring3.fs Ring3.m (fun _ => 1) Ring3.measures Ring3.thirds
    rwa [h3 (Ring3.within _ le_rfl), Ring3.cost_thirds] at h1
  · refine ⟨_, (stores_exists (C := Ring3.C) (by decide) (fun v _ => ?_) fun v _ => ?_).holds Ring3.same⟩
    · exact (isValueOf_lie .so2).2 ⟨_, rfl, rfl⟩
    · rw [turnBy_flatten]; rfl
  · obtain ⟨σ, hσ, hD⟩ := C117_anchored Ring3.fs (fun _ => 1) (fun _ _ => one_ne_zero) [Ring3.v0, Ring3.v1, Ring3.v2] (by decide) Ring3.same
      Ring3.anchored
    obtain ⟨g, hg, H⟩ := C117_solve (F := Ring3.F) Ring3.classes Ring3.fs (by simp [Ring3.fs]) Ring3.m (fun _ => 1) Ring3.measures
      (fun _ _ _ _ => rfl) _ σ hσ hD μ hμ
    refine ⟨g, hg, fun CE gE hl a h sE s hS hTS hDU => ?_⟩
    obtain ⟨o, log, θ', k, h1, h2, h3, -, -, -, h4, -⟩ := (H CE gE hl _ Ring3.within a h).1 sE s hS hTS hDU
    have h5 := h4 Ring3.thirds
    rw [sub_self, mul_zero] at h5
    obtain ⟨t0, t1, t2⟩ := Ring3.low (by linarith : angleCost Ring3.fs Ring3.m (fun _ => 1) θ' ≤ _)
    have hst := storage_congr (stores_of_holds Ring3.classes h) (stores_of_holds Ring3.classes h2) (fun v hv => by
      simp only [List.mem_cons, List.not_mem_nil, or_false] at hv
      rcases hv with rfl | rfl | rfl
      · rw [t0]; simp [Ring3.thirds, Ring3.v0]
      · rw [t1]; simp [Ring3.thirds, Ring3.v1]
      · rw [t2, show Ring3.thirds Ring3.v2 = 4 * Real.pi / 3 by simp [Ring3.thirds, Ring3.v2]; ring])
    have hoa : o = a := by
      cases o; cases a
      simp only at hst h1
      rw [hst, h1]
    rw [hoa] at h3
    exact ⟨log, h3⟩

/-- The hypotheses of `C117_start` are met, with a cost of `1/4`: one rotation by 0, measured to be a rotation by 1/2. -/
example : ∃ (m : Factor → ℝ) (θ : Var → ℝ), angleCost [PriorFactor.make 0 Ring3.v0 (turnBy (1 / 2)) (.diagonal ⟨[1], [1]⟩)] m (fun _ => 1) θ = 1 / 4 ∧
    turnBy 0 = turnBy (θ Ring3.v0) := by
  have hT : ∀ f ∈ [PriorFactor.make 0 Ring3.v0 (turnBy (1 / 2)) (.diagonal ⟨[1], [1]⟩)], MeasuresAngle Ring3.F (1 / 2) 1 f := by
    intro f hf
    rw [List.mem_singleton.1 hf]
    exact .prior 0 Ring3.v0 _ rfl rfl
  have hpi := Real.two_le_pi
  obtain ⟨c, h1, -, h3⟩ := C117_cost (F := Ring3.F) _ (fun _ => 1 / 2) (fun _ => 1) hT fun _ => 0
  have hc : c = 1 / 4 := by
    rw [h3 fun f hf => by
      rw [List.mem_singleton.1 hf]
      simp only [misfit, PriorFactor.make]
      rw [abs_of_pos (by norm_num)]
      linarith]
    simp [angleCost, misfit, PriorFactor.make]
    norm_num
  obtain ⟨m, θ, k1, -, k3, -⟩ := C117_start (F := Ring3.F) _ (fun _ => 1 / 2) (fun _ => 1) hT [Ring3.v0] (fun _ => turnBy 0)
    (fun v _ => ⟨Real.cos 0, Real.sin 0, Real.cos_sq_add_sin_sq 0, rfl⟩) (fun v => by simp [PriorFactor.make]) c h1
    (fun f _ => by rw [hc]; nlinarith)
  exact ⟨m, θ, k3.trans hc, k1 _ (by simp)⟩

end Jaxfg.Props
