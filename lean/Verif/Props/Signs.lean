/-
Property C118: which of the two unit quaternions of a rotation is stored does not matter, except at half turns. See
Verif.Props.SolverReal for the setting: real arithmetic, inside a program that also knows infinities and NaNs.
-/
import Verif.Lemmas.Signs
import Verif.Lemmas.Weight
import Verif.Props.Equivariance

namespace Jaxfg.Props
open Spec
open Ext (fin)

section
variable (F : Nat → FactorClass) (C : Ty → VarClass ℝ)

/-- Any symmetry with exceptions that keeps the sizes of the values: if a solver returns although exceptions would be noticed, the
solver returns for the changed problem, prints the same lines, and its results correspond. -/
theorem C118_symmetry (hC : GoodClasses C) (fs : List Factor) (hne : fs ≠ []) (hfs : ∀ f ∈ fs, FactorWF F C f)
    (hpos : ∀ f ∈ fs, ∀ v ∈ f.vars, 0 < (C v.ty).paramDim) (φ : Factor → Factor) (τ : Var → Value ℝ → Value ℝ)
    (V : Var → Value ℝ → Prop) (N : Factor → (Var → Value ℝ) → Prop) (hS : IsSymmetryAway F C fs φ τ V N)
    (hfs' : ∀ f ∈ fs, FactorWF F C (φ f))
    (hsize : ∀ v x, IsValueOf (C v.ty) x → V v x → sqNorm (τ v x).flatten = sqNorm x.flatten) :
    ∃ g g', Graph.make C fs = .ok g ∧ Graph.make C (fs.map φ) = .ok g' ∧
      ∀ CE gE gE', Lifts CE gE C (g.ops F C) → Lifts CE gE' C (g'.ops F C) →
      ∀ ok : Assign ℝ → Prop, (∀ a val, ok a → Holds C fs (Graph.variablesOf fs) val a → (∀ v ∈ Graph.variablesOf fs, V v (val v)) →
        ∀ f ∈ fs, ¬ N f val) →
      ∀ vars vars' val a a', Corresponding C fs τ V vars vars' val a a' →
        let O := fun o o' => o.layout = a.layout ∧ o'.layout = a'.layout ∧ ∃ val', Corresponding C fs τ V vars vars' val' o o'
        let W := watched (okFin ok) gE
        (ok a → a.layout = g.layout → a'.layout = g'.layout → ∀ c r, g.computeCost F C a = .ok (c, r) →
          g'.computeCost F C a' = .ok (c, r)) ∧
        (∀ sE s, LiftsGN sE s → SizedSolutions s.linear → NoGradientTest s.toCriteria →
          SolvesAlike (sE.solve CE W) (sE.solve CE gE') a a' O) ∧
        (∀ sE s, LiftsLM sE s → SizedSolutions s.linear → NoGradientTest s.toCriteria → s.lambdaFactor ≠ 0 →
          SolvesAlike (sE.solve CE W) (sE.solve CE gE') a a' O) ∧
        (∀ sE s, LiftsDogleg sE s → SizedSolutions s.linear → NoGradientTest s.toCriteria → ZeroAtZero s.linear → 0 < s.radiusInitial →
          SolvesAlike (sE.solve CE W) (sE.solve CE gE') a a' O) ∧
        (∀ (sE : FixedIteration Ext) L, LiftsSolver sE.linear L → SizedSolutions L → a.layout = g.layout → a'.layout = g'.layout →
          SolvesAlike (sE.solve CE W) (sE.solve CE gE') a a' O) := by
  obtain ⟨g, hg, hG⟩ := graph_ok (F := F) hfs hne
  obtain ⟨g', hg', hG'⟩ := graph_ok (F := F) (fs := fs.map φ) (C := C) (by
    intro f hf
    obtain ⟨f0, h0, rfl⟩ := List.mem_map.1 hf
    exact hfs' f0 h0) (by simpa using hne)
  refine ⟨g, g', hg, hg', fun CE gE gE' hl0 hl' ok hok vars vars' val a a' ha => ?_⟩
  have hl := hl0.watched ok
  have sim := fun L hL => symmetry_sim_away (L := L) hC hfs hne hS hfs' hG hG' hL hok
  obtain ⟨b, b', u1, u2, hb⟩ := corresponding_in hC hpos hG hG' hS ha
  have hn : ∀ {x x' : Assign ℝ}, SymR C (Graph.variablesOf fs) τ V x x' → nrm x'.storage = nrm x.storage := fun h => symR_nrm hsize h
  have hin : ∀ {x}, a.updateStorageLayout C (g.ops F C).layout = .ok x →
      ∃ x', a'.updateStorageLayout C (g'.ops F C).layout = .ok x' ∧ SymR C (Graph.variablesOf fs) τ V x x' := by
    intro x hx
    have hx : a.updateStorageLayout C g.layout = .ok x := hx
    rw [u1] at hx; cases hx
    exact ⟨b', u2, hb⟩
  have hout : ∀ {x x' o}, SymR C (Graph.variablesOf fs) τ V x x' → x.updateStorageLayout C a.layout = .ok o →
      ∃ o', x'.updateStorageLayout C a'.layout = .ok o' ∧
        (o.layout = a.layout ∧ o'.layout = a'.layout ∧ ∃ val', Corresponding C fs τ V vars vars' val' o o') := by
    intro x x' o hx ho
    obtain ⟨o1, o1', e1, e2, e3⟩ := corresponding_out hpos ha hx
    rw [e1] at ho; cases ho
    exact ⟨o1', e2, e3⟩
  have stay : a.layout = g.layout → a'.layout = g'.layout → SymR C (Graph.variablesOf fs) τ V a a' := by
    intro h1 h2
    have e1 : a.updateStorageLayout C g.layout = .ok a := by
      unfold Assign.updateStorageLayout; rw [h1, hG.layout, layoutEq_refl C (variablesOf_spec _).1]; rfl
    have e2 : a'.updateStorageLayout C g'.layout = .ok a' := by
      unfold Assign.updateStorageLayout; rw [h2, hG'.layout, layoutEq_refl C (variablesOf_spec _).1]; rfl
    rw [e1] at u1; rw [e2] at u2; cases u1; cases u2
    exact hb
  refine ⟨fun h0 h1 h2 c r h => ?_, fun sE s hs hL ht fuel out log h => ?_, fun sE s hs hL ht hf fuel out log h => ?_,
    fun sE s hs hL ht hz hr fuel out log h => ?_, fun sE L hs hL h1 h2 fuel out log h => ?_⟩
  · obtain ⟨r', k1, rfl, -⟩ := (sim (fun _ _ _ _ => .error .value) fun _ _ _ _ _ _ _ h => by cases h).cost (stay h1 h2)
      (c := c) (r := r) (by simp only [watched, if_pos h0]; exact h)
    exact k1
  · exact (sim _ hL).gnSolve hl hl' hs hs ((sim _ hL).noGradient ht hn) hin hout h
  · exact (sim _ hL).lmSolve hl hl' hs hs hf ((sim _ hL).noGradient ht hn) hin hout h
  · exact (sim _ hL).doglegSolve hl hl' hs hs hz hr ((sim _ hL).noGradient ht hn) hin hout h
  · obtain ⟨o, o', k1, k2, val', s1, s2, k3⟩ := (sim _ hL).fixedSolve hl hl' hs hs rfl rfl rfl (stay h1 h2) h
    have hv := variablesOf_spec fs
    have hvo : Graph.variablesOf (fs.map φ) = Graph.variablesOf fs := variablesOf_map hS.vars
    have l1 : o.layout = a.layout := by rw [h1, hG.layout]; exact s1.1.layout
    have l2 : o'.layout = a'.layout := by rw [h2, hG'.layout, hvo]; exact s2.1.layout
    have m1 := s1.holds hv.2
    have m2 := s2.holds hv.2
    have same : ∀ v, v ∈ vars ↔ v ∈ Graph.variablesOf fs := fun v => by rw [ha.left.sameVars, hv.2]
    have same' : ∀ v, v ∈ vars' ↔ v ∈ Graph.variablesOf fs := fun v => by rw [ha.right.sameVars, hv.2]
    refine ⟨o, o', k1, k2, l1, l2, val', ⟨⟨ha.left.assignment.1, ?_, m1.assignment.2.2⟩, m1.isGlobal, ha.left.sameVars,
      fun v hv => m1.values v ((same v).1 hv)⟩, ⟨⟨ha.right.assignment.1, ?_, m2.assignment.2.2⟩, m2.isGlobal, ha.right.sameVars,
      fun v hv => m2.values v ((same' v).1 hv)⟩, fun v hv => k3 v ((same v).1 hv)⟩
    · rw [l1]; exact ha.left.assignment.2.1
    · rw [l2]; exact ha.right.assignment.2.1

/-- Observation changes nothing: the solver that returns under observation returns the same without. -/
theorem C118_observation (hC : GoodClasses C) (fs : List Factor) (hne : fs ≠ []) (hfs : ∀ f ∈ fs, FactorWF F C f)
    (hpos : ∀ f ∈ fs, ∀ v ∈ f.vars, 0 < (C v.ty).paramDim) :
    ∃ g, Graph.make C fs = .ok g ∧ ∀ CE gE, Lifts CE gE C (g.ops F C) → ∀ ok : Assign ℝ → Prop, ∀ vars val a, Holds C fs vars val a →
      let W := watched (okFin ok) gE
      (∀ sE s, LiftsGN sE s → SizedSolutions s.linear → NoGradientTest s.toCriteria →
        SolvesAlike (sE.solve CE W) (sE.solve CE gE) a a Eq) ∧
      (∀ sE s, LiftsLM sE s → SizedSolutions s.linear → NoGradientTest s.toCriteria → s.lambdaFactor ≠ 0 →
        SolvesAlike (sE.solve CE W) (sE.solve CE gE) a a Eq) ∧
      (∀ sE s, LiftsDogleg sE s → SizedSolutions s.linear → NoGradientTest s.toCriteria → ZeroAtZero s.linear → 0 < s.radiusInitial →
        SolvesAlike (sE.solve CE W) (sE.solve CE gE) a a Eq) ∧
      (∀ (sE : FixedIteration Ext) L, LiftsSolver sE.linear L → SizedSolutions L → a.layout = g.layout →
        SolvesAlike (sE.solve CE W) (sE.solve CE gE) a a Eq) := by
  have hS : IsSymmetryAway F C fs id (fun _ x => x) (fun _ _ => True) (fun _ _ => False) := ⟨fun _ _ => rfl, fun _ _ => rfl,
    fun _ _ => rfl, fun _ _ => rfl, fun _ _ h _ => h, fun _ _ _ _ _ => rfl, fun _ _ _ _ => rfl, fun v x d _ _ _ => ⟨trivial, rfl⟩⟩
  obtain ⟨g, g', hg, hg', h⟩ := C118_symmetry F C hC fs hne hfs hpos id _ _ _ hS hfs fun _ _ _ _ => rfl
  rw [List.map_id, hg] at hg'
  obtain rfl : g = g' := Except.ok.inj hg'
  refine ⟨g, hg, fun CE gE hl ok vars val a ha => ?_⟩
  obtain ⟨-, k1, k2, k3, k4⟩ := h CE gE gE hl hl ok (fun _ _ _ _ _ _ _ h => h) vars vars val a a ⟨ha, ha, fun _ _ => trivial⟩
  have conv : ∀ {o o' : Assign ℝ}, (o.layout = a.layout ∧ o'.layout = a.layout ∧
      ∃ val', Corresponding C fs (fun _ x => x) (fun _ _ => True) vars vars val' o o') → o = o' := by
    rintro ⟨s, l⟩ ⟨s', l'⟩ ⟨e1, e2, val', e3⟩
    have r1 := (stores_of_holds hC e3.left).1.storage
    have r2 := (stores_of_holds hC e3.right).1.storage
    simp only at e1 e2 r1 r2
    rw [e1, e2, r1, r2]
  exact ⟨fun sE s x1 x2 x3 => (k1 sE s x1 x2 x3).imp conv, fun sE s x1 x2 x3 x4 => (k2 sE s x1 x2 x3 x4).imp conv,
    fun sE s x1 x2 x3 x4 x5 => (k3 sE s x1 x2 x3 x4 x5).imp conv, fun sE L x1 x2 x3 => (k4 sE L x1 x2 x3 x3).imp conv⟩

variable (K : Ty → LieType)

/-- A unit quaternion and its negative describe the same motion, and it is a half turn exactly if the trace of the rotation is `-1`. -/
theorem C118_half_turn (k : LieType) (e : Bool) (x : List ℝ) (hx : k.Valid x) :
    k.motion (k.signed e x) = k.motion x ∧
    (k.HalfTurn x ↔ (k = .so3 ∧ (k.motion x).trace = -1) ∨ (k = .se3 ∧ (k.motion x).trace - 1 = -1)) := by
  refine ⟨by cases e <;> simp [LieType.signed, other_motion hx], ?_⟩
  cases k with
  | so2 => simp [LieType.HalfTurn]
  | se2 => simp [LieType.HalfTurn]
  | so3 =>
    obtain ⟨w, i, j, k, rfl, h⟩ := hx
    have e : (LieType.motion .so3 [w, i, j, k]).trace = 4 * w ^ 2 - 1 := by
      show (quatMatrix w i j k).trace = _
      simp [quatMatrix, Matrix.trace, Fin.sum_univ_three]
      linarith
    simp only [LieType.HalfTurn, e, true_and, List.getD_cons_zero, reduceCtorEq, false_and, or_false]
    constructor
    · rintro rfl; norm_num
    · intro h; exact pow_eq_zero_iff two_ne_zero |>.1 (by linarith)
  | se3 =>
    obtain ⟨w, i, j, k, a, b, c, rfl, h⟩ := hx
    have e : (LieType.motion .se3 [w, i, j, k, a, b, c]).trace = 4 * w ^ 2 := by
      show (poseMatrix w i j k a b c).trace = _
      simp [poseMatrix, Matrix.trace, Fin.sum_univ_four]
      linarith
    simp only [LieType.HalfTurn, e, true_and, or_true, List.getD_cons_zero, reduceCtorEq, false_and, false_or]
    constructor
    · rintro rfl; norm_num
    · intro h; exact pow_eq_zero_iff two_ne_zero |>.1 (by linarith)

/-- **C118.** In a pose graph, replace any of the stored unit quaternions, in the measurements and in the initial poses, by their
negatives. As long as no measurement is off by exactly half a turn, residuals and costs stay what they are; and if the solver
meets no such half turn, it returns the same poses, with the replaced quaternions, and prints the same lines. The gradient test
must be switched off (`C118_gradient_test`). -/
theorem C118_signs (hK : ∀ t, C t = (K t).ops.varClass) (fs : List Factor) (hne : fs ≠ []) (hM : ∀ f ∈ fs, ∃ P, Measures F K f P)
    (hnoise : ∀ f ∈ fs, ∀ v ∈ f.vars, NoiseWF f.noise (K v.ty).ops.tangentDim (K v.ty).ops.tangentDim)
    (e : Factor → Bool) (s : Var → Bool) :
    ∃ g g', Graph.make C fs = .ok g ∧ Graph.make C (fs.map (resigned K e)) = .ok g' ∧
      ∀ CE gE gE', Lifts CE gE C (g.ops F C) → Lifts CE gE' C (g'.ops F C) →
      ∀ vars vars' pose a a', (∀ v ∈ vars, (K v.ty).Valid (pose v)) → Holds C fs vars (poseValue K pose) a →
        Holds C (fs.map (resigned K e)) vars' (poseValue K fun v => (K v.ty).signed (s v) (pose v)) a' →
        let O := fun o o' => o.layout = a.layout ∧ o'.layout = a'.layout ∧ SamePoses C K s vars o o'
        let W := watched (okFin (NoHalfTurn C K fs)) gE
        (NoHalfTurn C K fs a → a.layout = g.layout → a'.layout = g'.layout → ∀ c r, g.computeCost F C a = .ok (c, r) →
          g'.computeCost F C a' = .ok (c, r)) ∧
        (∀ sE s, LiftsGN sE s → SizedSolutions s.linear → NoGradientTest s.toCriteria →
          SolvesAlike (sE.solve CE W) (sE.solve CE gE') a a' O ∧ SolvesAlike (sE.solve CE W) (sE.solve CE gE) a a Eq) ∧
        (∀ sE s, LiftsLM sE s → SizedSolutions s.linear → NoGradientTest s.toCriteria → s.lambdaFactor ≠ 0 →
          SolvesAlike (sE.solve CE W) (sE.solve CE gE') a a' O ∧ SolvesAlike (sE.solve CE W) (sE.solve CE gE) a a Eq) ∧
        (∀ sE s, LiftsDogleg sE s → SizedSolutions s.linear → NoGradientTest s.toCriteria → ZeroAtZero s.linear → 0 < s.radiusInitial →
          SolvesAlike (sE.solve CE W) (sE.solve CE gE') a a' O ∧ SolvesAlike (sE.solve CE W) (sE.solve CE gE) a a Eq) ∧
        (∀ (sE : FixedIteration Ext) L, LiftsSolver sE.linear L → SizedSolutions L → a.layout = g.layout → a'.layout = g'.layout →
          SolvesAlike (sE.solve CE W) (sE.solve CE gE') a a' O ∧ SolvesAlike (sE.solve CE W) (sE.solve CE gE) a a Eq) := by
  have hS := resigned_isSymmetry F C K hK e s hM
  have hpos : ∀ f ∈ fs, ∀ v ∈ f.vars, 0 < (C v.ty).paramDim := fun f hf v hv => by rw [hK]; exact lie_paramDim_pos _
  have h1 : ∀ f ∈ fs, FactorWF F C f := fun f hf =>
    (C54_wellformed F C K f _ (hM f hf).choose_spec fun v hv => ⟨hK _, hnoise f hf v hv⟩).1
  have h2 : ∀ f ∈ fs, FactorWF F C (resigned K e f) := fun f hf =>
    (C54_wellformed F C K _ _ (resigned_measures F K e (hM f hf).choose_spec).choose_spec fun v hv => ⟨hK _, hnoise f hf v hv⟩).1
  have hG := lie_goodClasses hK
  obtain ⟨g, g', hg, hg', h⟩ := C118_symmetry F C hG fs hne h1 hpos _ _ _ _ hS h2 (by
    rintro v x - ⟨p, hp, rfl⟩
    simp only [signedValue, value_flatten]
    exact signed_sqNorm hp)
  obtain ⟨g0, hg0, h0⟩ := C118_observation F C hG fs hne h1 hpos
  obtain rfl : g = g0 := Except.ok.inj (hg.symm.trans hg0)
  refine ⟨g, g', hg, hg', fun CE gE gE' hl hl' vars vars' pose a a' hpose ha ha' => ?_⟩
  have hc : Corresponding C fs (signedValue K s) (fun v x => ∃ p, (K v.ty).Valid p ∧ x = (K v.ty).ops.value p) vars vars'
      (poseValue K pose) a a' :=
    ⟨ha, ⟨ha'.assignment, ha'.isGlobal, fun v => by
      rw [ha'.sameVars, ← (variablesOf_spec _).2, variablesOf_map hS.vars, (variablesOf_spec _).2], fun v hv => by
        rw [ha'.values v hv]; simp only [poseValue, signedValue, value_flatten]⟩, fun v hv => ⟨pose v, hpose v hv, rfl⟩⟩
  obtain ⟨k0, k1, k2, k3, k4⟩ := h CE gE gE' hl hl' (NoHalfTurn C K fs) (by
    intro b val hb hval hV f hf hN
    refine hb f hf (fun v => (val v).flatten) (fun v hv => ?_) hN
    have hv : v ∈ Graph.variablesOf fs := ((variablesOf_spec fs).2 v).2 ⟨f, hf, hv⟩
    obtain ⟨p, hp, e1⟩ := hV v hv
    rw [hval.values v hv, e1, poseValue, e1, value_flatten]) vars vars' _ a a' hc
  obtain ⟨j1, j2, j3, j4⟩ := h0 CE gE hl (NoHalfTurn C K fs) vars _ a ha
  have conv : ∀ {o o' : Assign ℝ}, (o.layout = a.layout ∧ o'.layout = a'.layout ∧ ∃ val', Corresponding C fs (signedValue K s)
      (fun v x => ∃ p, (K v.ty).Valid p ∧ x = (K v.ty).ops.value p) vars vars' val' o o') →
      (o.layout = a.layout ∧ o'.layout = a'.layout ∧ SamePoses C K s vars o o') := by
    rintro o o' ⟨e1, e2, val', e3⟩
    refine ⟨e1, e2, fun v hv => ?_⟩
    obtain ⟨p, hp, e4⟩ := e3.valid v hv
    refine ⟨p, hp, by rw [e3.left.values v hv, e4], ?_⟩
    rw [e3.right.values v ((e3.right.sameVars v).2 ((e3.left.sameVars v).1 hv)), e4, signedValue, value_flatten]
  exact ⟨k0, fun sE s x1 x2 x3 => ⟨(k1 sE s x1 x2 x3).imp conv, j1 sE s x1 x2 x3⟩,
    fun sE s x1 x2 x3 x4 => ⟨(k2 sE s x1 x2 x3 x4).imp conv, j2 sE s x1 x2 x3 x4⟩,
    fun sE s x1 x2 x3 x4 x5 => ⟨(k3 sE s x1 x2 x3 x4 x5).imp conv, j3 sE s x1 x2 x3 x4 x5⟩,
    fun sE L x1 x2 x3 x4 => ⟨(k4 sE L x1 x2 x3 x4).imp conv, j4 sE L x1 x2 x3⟩⟩

end

/-! ### The exceptions -/

section Witness
open LieGroup

/-- One pose of space. -/
def SignsEx.v : Var := ⟨0, 0⟩

/-- All variables are poses of space. -/
noncomputable def SignsEx.C (_ : Ty) : VarClass ℝ := se3.varClass

/-- Priors on poses of space. -/
noncomputable def SignsEx.F (_ : Nat) : FactorClass := priorFactorClass se3

/-- Square roots of precision matrices need not be diagonal: this one adds the third coordinate to the first. -/
def SignsEx.W : Arr ℝ := ⟨[6, 6], [1, 0, 1, 0, 0, 0, 0, 1, 0, 0, 0, 0, 0, 0, 1, 0, 0, 0, 0, 0, 0, 1, 0, 0, 0, 0, 0, 0, 1, 0, 0, 0, 0, 0, 0, 1]⟩

/-- A measured pose: half a turn about the first axis. -/
noncomputable def SignsEx.f : Factor := PriorFactor.make 0 SignsEx.v (se3.value [0, 1, 0, 0, 1, 1, 0]) (.gaussian SignsEx.W)

/-- The pose has not turned. -/
noncomputable def SignsEx.a : Assign ℝ := ⟨[1, 0, 0, 0, 0, 0, 0], Layout.make SignsEx.C [SignsEx.v] false⟩

theorem SignsEx.holds (m : List ℝ) : Holds SignsEx.C [PriorFactor.make 0 SignsEx.v (se3.value m) (.gaussian SignsEx.W)] [SignsEx.v]
    (poseValue (fun _ => .se3) fun _ => [1, 0, 0, 0, 0, 0, 0]) SignsEx.a where
  assignment := ⟨by decide, rfl, rfl⟩
  isGlobal := rfl
  sameVars w := by simp [PriorFactor.make]
  values w hw := by
    obtain rfl : w = SignsEx.v := by simpa using hw
    rfl

theorem SignsEx.log_half (s : ℝ) (hs : s * s = 1) :
    se3Log [0, s, 0, 0, 1, 1, 0] = [1, 0, s * (Real.pi / 2), -(s * Real.pi), 0, 0] := by
  have h1 : norm3 s 0 0 = 1 := by simp [norm3, hs]
  have h2 : norm3 (-(s * Real.pi)) 0 0 = Real.pi := by
    have : -(s * Real.pi) * -(s * Real.pi) + 0 * 0 + 0 * 0 = Real.pi ^ 2 := by linear_combination Real.pi ^ 2 * hs
    rw [norm3, this, Real.sqrt_sq Real.pi_pos.le]
  have h3 : so3Log [0, s, 0, 0] = [-(s * Real.pi), 0, 0] := by
    simp [so3Log, h1, atanFactor]
    ring
  have h4 : logCoeffC Real.pi = 1 / Real.pi ^ 2 := by
    simp [logCoeffC, Real.pi_ne_zero]
  show mul3 (skewPoly (-1 / 2) (logCoeffC (norm3 ((so3Log [0, s, 0, 0]).getD 0 0) ((so3Log [0, s, 0, 0]).getD 1 0)
    ((so3Log [0, s, 0, 0]).getD 2 0))) (so3Log [0, s, 0, 0])) [1, 1, 0] ++ so3Log [0, s, 0, 0] = _
  rw [h3]
  show mul3 (skewPoly (-1 / 2) (logCoeffC (norm3 (-(s * Real.pi)) 0 0)) _) _ ++ _ = _
  rw [h2, h4]
  have hp := Real.pi_ne_zero
  have h5 : s * Real.pi * (s * Real.pi) = Real.pi ^ 2 := by linear_combination Real.pi ^ 2 * hs
  simp [mul3, skewPoly, h5, hp]
  ring

theorem SignsEx.cost (s : ℝ) (hs : s * s = 1) : ∃ g r,
    Graph.make SignsEx.C [PriorFactor.make 0 SignsEx.v (se3.value [0, s, 0, 0, 1, 1, 0]) (.gaussian SignsEx.W)] = .ok g ∧
    g.computeCost SignsEx.F SignsEx.C SignsEx.a = .ok ((1 + s * (Real.pi / 2)) ^ 2 + Real.pi ^ 2 / 4 + Real.pi ^ 2, r) := by
  have hM := Measures.prior (F := SignsEx.F) (K := fun _ => .se3) 0 SignsEx.v [0, s, 0, 0, 1, 1, 0] (.gaussian SignsEx.W) rfl
    ⟨0, s, 0, 0, 1, 1, 0, rfl, by linarith⟩
  have hwf := (C54_wellformed SignsEx.F SignsEx.C (fun _ => .se3) _ _ hM fun v _ => ⟨rfl, ⟨rfl, rfl⟩⟩).1
  obtain ⟨g, hg, h⟩ := C16_cost_is_sum SignsEx.F SignsEx.C (lie_goodClasses (K := fun _ => .se3) fun _ => rfl)
    [PriorFactor.make 0 SignsEx.v (se3.value [0, s, 0, 0, 1, 1, 0]) (.gaussian SignsEx.W)] (by simp)
    (fun f hf => by rw [List.mem_singleton.1 hf]; exact hwf)
  obtain ⟨w, hw, hc⟩ := h _ _ _ (SignsEx.holds _)
  refine ⟨g, (evalOrder [PriorFactor.make 0 SignsEx.v (se3.value [0, s, 0, 0, 1, 1, 0]) (.gaussian SignsEx.W)]).flatMap w, hg,
    hc.trans ?_⟩
  congr 2
  have h1 := hw _ (List.mem_singleton_self _)
  have h2 : (SignsEx.F 0).residual (PriorFactor.make 0 SignsEx.v (se3.value [0, s, 0, 0, 1, 1, 0]) (.gaussian SignsEx.W)).self
      [poseValue (fun _ => .se3) (fun _ => [1, 0, 0, 0, 0, 0, 0]) SignsEx.v] = se3Log [0, s, 0, 0, 1, 1, 0] := by
    show se3Log (se3Mul (se3Inv [1, 0, 0, 0, 0, 0, 0]) [0, s, 0, 0, 1, 1, 0]) = _
    congr 1
    simp [se3Mul, se3Inv, so3Inv, so3Mul, so3Matrix, mul3]
  have h3 : einsumMatVec SignsEx.W (se3Log [0, s, 0, 0, 1, 1, 0]) =
      .ok (w (PriorFactor.make 0 SignsEx.v (se3.value [0, s, 0, 0, 1, 1, 0]) (.gaussian SignsEx.W))) := by
    rw [← h2]; exact h1
  rw [SignsEx.log_half s hs] at h3
  simp only [List.map_cons, List.map_nil, List.sum_cons, List.sum_nil, add_zero]
  generalize w (PriorFactor.make 0 SignsEx.v (se3.value [0, s, 0, 0, 1, 1, 0]) (.gaussian SignsEx.W)) = u at h3 ⊢
  simp [einsumMatVec, SignsEx.W, Arr.at2, List.range_succ, Finset.sum_range_succ] at h3
  rw [← h3]
  simp [sqNorm]
  linear_combination (5 / 4 * Real.pi ^ 2) * hs

/-- **C118, half turns are an exception.** A pose of space has not turned, and is measured to have turned by half a turn and moved.
With a square root of the precision matrix that is not diagonal, the cost depends on which of the two quaternions of the measured
rotation is stored. -/
theorem C118_half_turns_matter : ∃ g g' r r' c c',
    Graph.make SignsEx.C [SignsEx.f] = .ok g ∧
    Graph.make SignsEx.C ([SignsEx.f].map (resigned (fun _ => .se3) fun _ => true)) = .ok g' ∧
    Holds SignsEx.C [SignsEx.f] [SignsEx.v] (poseValue (fun _ => .se3) fun _ => [1, 0, 0, 0, 0, 0, 0]) SignsEx.a ∧
    ¬ NoHalfTurn SignsEx.C (fun _ => .se3) [SignsEx.f] SignsEx.a ∧
    g.computeCost SignsEx.F SignsEx.C SignsEx.a = .ok (c, r) ∧ g'.computeCost SignsEx.F SignsEx.C SignsEx.a = .ok (c', r') ∧
    c - c' = 2 * Real.pi := by
  obtain ⟨g, r, h1, h2⟩ := SignsEx.cost 1 (by norm_num)
  obtain ⟨g', r', h3, h4⟩ := SignsEx.cost (-1) (by norm_num)
  refine ⟨g, g', r, r', _, _, h1, ?_, SignsEx.holds _, ?_, h2, h4, by ring⟩
  · rw [← h3]
    congr 1
    simp [SignsEx.f, resigned, PriorFactor.make, LieGroup.value, factorType, LieType.signed, LieType.other]
  · intro h
    refine h _ (List.mem_singleton_self _) (fun _ => [1, 0, 0, 0, 0, 0, 0]) (fun w hw => (SignsEx.holds [0, 1, 0, 0, 1, 1, 0]).values w
      (by simpa [SignsEx.f, PriorFactor.make] using hw)) ⟨Or.inr rfl, ?_⟩
    show (se3Mul (se3Inv [1, 0, 0, 0, 0, 0, 0]) [0, 1, 0, 0, 1, 1, 0]).getD 0 0 = 0
    simp [se3Mul, se3Inv, so3Inv, so3Mul]

/-- **C118, the gradient test is an exception.** The test compares stored numbers, not poses, and takes the maximum of their
differences without absolute values. At the same pose with the same gradient, it passes for one of the two quaternions and fails
for the other, whatever the tolerance, up to one. -/
theorem C118_gradient_test (t : Criteria ℝ) (h0 : 0 < t.gradientTolerance) (h1 : t.gradientTolerance ≤ 1) (n : Nat)
    (hn : t.gradientToleranceStartStep ≤ n) (c : ℝ) (r : List ℝ) :
    let C : Ty → VarClass ℝ := fun _ => so3.varClass
    let test := fun q => (t.map fin).convergedGradient (fun t => (C t).lift)
      (State.map fin ⟨n, ⟨q, Layout.make C [⟨0, 0⟩] false⟩, c, r, false⟩) (Layout.make C [⟨0, 0⟩] true) ([-Real.pi, 0, 0].map fin)
    LieType.so3.motion [1, 0, 0, 0] = LieType.so3.motion [-1, 0, 0, 0] ∧ test [1, 0, 0, 0] = .ok false ∧ test [-1, 0, 0, 0] = .ok true := by
  intro C test
  have key : ∀ w : ℝ, test [w, 0, 0, 0] = .ok (decide (max (max (max w w) 0) 0 < t.gradientTolerance)) := by
    intro w
    have e := convergedGradient_fin (lifts_lift C ⟨Layout.make C [⟨0, 0⟩] false, Layout.make C [⟨0, 0⟩] true, fun _ => .error .value,
      fun _ _ => .error .value⟩) t ⟨n, ⟨[w, 0, 0, 0], Layout.make C [⟨0, 0⟩] false⟩, c, r, false⟩ (Layout.make C [⟨0, 0⟩] true)
      [-Real.pi, 0, 0]
    refine e.trans ?_
    have h2 : so3Mul [w, 0, 0, 0] (so3Exp [-Real.pi, 0, 0]) = [0, -w, 0, 0] := by
      have : norm3 (-Real.pi) 0 0 = Real.pi := by
        rw [norm3, show -Real.pi * -Real.pi + 0 * 0 + 0 * 0 = Real.pi ^ 2 by ring, Real.sqrt_sq Real.pi_pos.le]
      simp [so3Mul, so3Exp, this, sinHalfOver, Real.pi_ne_zero]
    have h3 : Assign.manifoldRetract C ⟨[w, 0, 0, 0], Layout.make C [⟨0, 0⟩] false⟩ ⟨[-Real.pi, 0, 0], Layout.make C [⟨0, 0⟩] true⟩ =
        .ok ⟨[0, -w, 0, 0], Layout.make C [⟨0, 0⟩] false⟩ := by
      rw [← h2]; rfl
    unfold gradientTest
    rw [h3]
    simp only [py_bind_ok, List.zipWith]
    simp [hn]
  refine ⟨(by
    have := other_motion (k := .so3) (x := [1, 0, 0, 0]) ⟨1, 0, 0, 0, rfl, by norm_num⟩
    rw [← this]; simp [LieType.other]), ?_, ?_⟩
  · rw [key]; simp [h1]
  · rw [key]; simp [h0]

end Witness

/-! ### Example: the pose graph of `PoseEx` with other quaternions -/

namespace PoseEx

/-- Settings without the gradient test. -/
noncomputable def noGradient (stale : Pattern → ScipyCoo ℝ → ℝ → List ℝ → Py (List ℝ)) (addr : Nat) : GaussNewton ℝ :=
  { GaussNewton.defaults (Jaxfg.Poly.chol stale addr) with gradientToleranceStartStep := 100 }

/-- The measurement of the relative rotation of `r` and `s`, and the pose of `r`, are given by their other quaternions. The solver
meets no half turn and returns the same poses. -/
example (stale : Pattern → ScipyCoo ℝ → ℝ → List ℝ → Py (List ℝ)) (addr : Nat) : ∃ g g' a a' o o' log,
    let e := fun f : Factor => decide (f.cls = 2)
    let s' := fun v : Var => decide (v = r)
    Graph.make C fs = .ok g ∧ Graph.make C (fs.map (resigned K e)) = .ok g' ∧
    Holds C fs [x, y, r, s] (poseValue K (pose true)) a ∧
    Holds C (fs.map (resigned K e)) [x, y, r, s] (poseValue K fun v => (K v.ty).signed (s' v) (pose true v)) a' ∧ NoHalfTurn C K fs a ∧
    (noGradient stale addr).lift.solve (fun t => (C t).lift) (g.ops F C).lift 100 (a.map fin) = .ok (some (o.map fin, log)) ∧
    (noGradient stale addr).lift.solve (fun t => (C t).lift) (g'.ops F C).lift 100 (a'.map fin) = .ok (some (o'.map fin, log)) ∧
    SamePoses C K s' [x, y, r, s] o o' := by
  set e := fun f : Factor => decide (f.cls = 2)
  set s' := fun v : Var => decide (v = r)
  have hM : ∀ f ∈ fs, ∃ P, Measures F K f P := by
    intro f hf
    simp only [fs, List.mem_cons, List.not_mem_nil, or_false] at hf
    obtain ⟨m1, m2, m3⟩ := measures
    rcases hf with rfl | rfl | rfl
    · exact ⟨_, m1⟩
    · exact ⟨_, m2⟩
    · exact ⟨_, m3⟩
  have hwf : ∀ f ∈ fs, FactorWF F C f := fun f hf =>
    (C54_wellformed F C K f _ (hM f hf).choose_spec fun v hv => ⟨rfl, noise f hf v hv⟩).1
  have hC : GoodClasses C := lie_goodClasses fun _ => rfl
  obtain ⟨g0, a, c, w, hg0, ha, hc, hz⟩ := cost true
  obtain rfl : c = 0 := hz.2 rfl
  obtain ⟨a', ha'⟩ := holds_of (fs.map (resigned K e)) (fun v => by simp [fs, prior, step, turn, PriorFactor.make, resigned]; tauto)
    (fun v => (K v.ty).signed (s' v) (pose true v)) (fun v hv => signed_valid (pose_valid true v hv))
  obtain ⟨g, g', hg, hg', h⟩ := C118_signs F C K (fun _ => rfl) fs (by simp [fs]) hM noise e s'
  obtain rfl : g = g0 := Except.ok.inj (hg.symm.trans hg0)
  have hno : ∀ {vars b}, Holds C fs vars (poseValue K (pose true)) b → NoHalfTurn C K fs b := by
    intro vars b hb f hf p hp
    have hpose : ∀ v ∈ f.vars, p v = pose true v := by
      intro v hv
      have h1 := hb.values v ((hb.sameVars v).2 ⟨f, hf, hv⟩)
      rw [hp v hv] at h1
      have := congrArg Value.flatten (Except.ok.inj h1)
      simpa only [poseValue, value_flatten] using this
    simp only [fs, List.mem_cons, List.not_mem_nil, or_false] at hf
    rcases hf with rfl | rfl | rfl
    · rintro ⟨h1 | h1, -⟩ <;> cases h1
    · rintro ⟨h1 | h1, -⟩ <;> cases h1
    · rintro ⟨-, h1⟩
      have h1 : (LieGroup.so3Mul (LieGroup.so3Inv (LieGroup.so3Mul (LieGroup.so3Inv (p r)) (p s))) [0, 1, 0, 0]).getD 0 0 = 0 := h1
      rw [hpose r (by simp [turn]), hpose s (by simp [turn])] at h1
      have e1 : pose true r = [0, 0, 1, 0] := by simp [pose, r, x, y]
      have e2 : pose true s = [0, 0, 0, -1] := by simp [pose, r, x, y, s]
      rw [e1, e2] at h1
      norm_num [LieGroup.so3Mul, LieGroup.so3Inv] at h1
  obtain ⟨g1, hg1, hS⟩ := total_graph (F := F) hC hwf (by simp [fs])
  obtain rfl : g = g1 := Except.ok.inj (hg.symm.trans hg1)
  have hv := variablesOf_spec fs
  have hsame : ∀ v, v ∈ [x, y, r, s] ↔ v ∈ Graph.variablesOf fs := fun v => by rw [ha.sameVars, hv.2]
  obtain ⟨b, hb, hbl, hbs⟩ := (stores_of_holds hC ha).update hv.1 hsame fun v _ => lie_paramDim_pos _
  have hbh : Holds C fs (Graph.variablesOf fs) (poseValue K (pose true)) b := hbs.holds hv.2
  obtain ⟨g2, hg2, hsum⟩ := C16_cost_is_sum F C hC fs (by simp [fs]) hwf
  obtain rfl : g = g2 := Except.ok.inj (hg.symm.trans hg2)
  obtain ⟨w1, k1, k2⟩ := hsum _ _ _ ha
  obtain ⟨w2, k3, k4⟩ := hsum _ _ _ hbh
  have hw : fs.map (fun f => sqNorm (w2 f)) = fs.map fun f => sqNorm (w1 f) :=
    List.map_congr_left fun f hf => by rw [Except.ok.inj ((k3 f hf).symm.trans (k1 f hf))]
  rw [hw, (Prod.mk.inj (Except.ok.inj (k2.symm.trans hc))).1] at k4
  set rb := (evalOrder fs).flatMap w2
  have hg3 : g.layout = Layout.make C (Graph.variablesOf fs) false := hS.sane.layout
  have hrb : ∀ y ∈ rb, y = 0 := by
    have := (hS.sane.cost b 0 rb k4).symm
    rw [sqNorm_eq_zero] at this
    exact (List.eq_replicate_iff.1 this).2
  obtain ⟨A, hA, hrows⟩ := hS.jacobian b b 0 rb hbh.assignment (hbl.trans hg3.symm) hbh.assignment (hbl.trans hg3.symm) k4
  obtain ⟨hA1, hA2⟩ := hS.sane.jacobian b b 0 rb A hbh.assignment (hbl.trans hg3.symm) hbh.assignment (hbl.trans hg3.symm) k4 hA
  obtain ⟨z, hz1, -⟩ := matmul_ok (cooWF_T hA1) (x := rb) hrows.symm
  have hw1 : (watched (NoHalfTurn C K fs) (g.ops F C)).computeCost b = .ok (0, rb) := by
    simp only [watched, if_pos (hno hbh)]; exact k4
  have hreg := cholmod_regular stale .empty addr hA1 (fun p hp => by cases hp)
  have hrun := C48_gauss_newton ((lifts_lift C (g.ops F C)).watched (NoHalfTurn C K fs)) (hS.sane.watched _) (lie_zeroRetract fun _ => rfl)
    (liftsGN_lift (noGradient stale addr)) (by norm_num [noGradient, GaussNewton.defaults, Criteria.defaults]) ha.assignment hsame
    (fun t => lie_paramDim_pos _) (by simp) (b := b) (by rw [← hb, ← hg3]; rfl) ⟨hw1, hA, z, hz1, matmul_zero hrb hz1⟩ hreg.1 hreg.2 100
  rw [if_neg (by norm_num)] at hrun
  obtain ⟨h1, h2⟩ := (h _ _ _ (lifts_lift _ _) (lifts_lift _ _) _ _ _ a a' (pose_valid true) ha ha').2.1 _ _
    (liftsGN_lift (noGradient stale addr)) (cholmod_sized stale addr) ⟨by norm_num [noGradient], by show (100 : Int) ≤ 100; norm_num⟩
  obtain ⟨o1, o', e1, e2, -, -, e3⟩ := h1 100 _ _ hrun
  obtain ⟨o2, o3, e4, e5, rfl⟩ := h2 100 _ _ hrun
  exact ⟨g, g', a, a', o1, o', _, hg, hg', ha, ha', hno ha, e5.trans (by rw [← e4, e1]), e2, e3⟩

end PoseEx

end Jaxfg.Props
