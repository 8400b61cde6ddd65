/-
Property C104: which pose graphs have covariances (jaxfg/experimental/_sparse_covariance.py together with jaxfg/geometry/_factors.py).
-/
import Verif.Lemmas.Anchored

namespace Jaxfg.Props
open Spec SparseCovariance
open Matrix hiding vec

/-- **C104.** For every pose graph of prior and between factors over the four groups, with noise models that are blind in no direction
(also under Huber wrappers), at all poses: if every pose is tied to the world by a chain of measurements that ends in a prior,
`SparseCovariance.make` succeeds; if one pose is not, it raises. -/
theorem C104_anchored (lib : CholmodChoice) (F : Nat → FactorClass) (C : Ty → VarClass ℝ) (K : Ty → LieType)
    (hC : ∀ t, C t = (K t).ops.varClass) (fs : List Factor) (hne : fs ≠ []) (hfs : ∀ f ∈ fs, ∃ P, Measures F K f P)
    (hnoise : ∀ f ∈ fs, ∀ v ∈ f.vars, NoiseWF f.noise (K v.ty).ops.tangentDim (K v.ty).ops.tangentDim ∧
      NoiseRegular f.noise (K v.ty).ops.tangentDim)
    (vars : List Var) (pose : Var → List ℝ) (hpose : ∀ v ∈ vars, (K v.ty).Valid (pose v)) (a : Assign ℝ)
    (h : Holds C fs vars (poseValue K pose) a) :
    ∃ g, Graph.make C fs = .ok g ∧
      ((∀ v ∈ vars, Anchored fs v) → ∃ c, SparseCovariance.make lib F C g a = .ok c) ∧
      ((∃ v ∈ vars, ¬ Anchored fs v) → SparseCovariance.make lib F C g a = .error .value) := by
  have hG := lie_goodClasses hC
  have hld : ∀ v : Var, (C v.ty).localDim = (K v.ty).ops.tangentDim := fun v => by rw [hC]; rfl
  have hwf : ∀ f ∈ fs, FactorWF F C f ∧ ∀ v ∈ f.vars, rdim f = (K v.ty).ops.tangentDim := by
    intro f hf
    obtain ⟨P, hP⟩ := hfs f hf
    exact C54_wellformed F C K f P hP fun v hv => ⟨hC _, (hnoise f hf v hv).1⟩
  obtain ⟨g, hg, -⟩ := graph_ok (F := F) (fun f hf => (hwf f hf).1) hne
  refine ⟨g, hg, ?_⟩
  obtain ⟨w, hw⟩ := Holds.whitened hG (fun f hf => (hwf f hf).1) h
  have : ∀ f, ∃ R, f ∈ fs → whitenedJacobiansAt F (poseValue K pose) f (w f) = .ok R := by
    intro f
    by_cases hf : f ∈ fs
    · obtain ⟨R, h1, _⟩ := whitenedJacobians_ok (hwf f hf).1 (h.valuesFor hG hf) (hw f hf).2
      exact ⟨R, fun _ => h1⟩
    · exact ⟨[], fun h => absurd h hf⟩
  choose R hR using this
  obtain ⟨m1, m2⟩ := make_iff lib hG hne (fun f hf => (hwf f hf).1) hg h hw hR
  have hs := variablesOf_spec fs
  have hmem : ∀ v, v ∈ Graph.variablesOf fs ↔ v ∈ vars := fun v => by rw [hs.2, ← h.sameVars v]
  have hval : ∀ {f v}, f ∈ fs → v ∈ f.vars → (K v.ty).Valid (pose v) := fun hf hv => hpose _ ((hmem _).1 (mem_variablesOf hf hv))
  -- the two kinds of factors
  have hprior : ∀ f ∈ fs, ∀ v, f.vars = [v] → ∃ W : Matrix (Fin (K v.ty).ops.tangentDim) (Fin (K v.ty).ops.tangentDim) ℝ, W.det ≠ 0 ∧
      ∀ e : Var → List ℝ, applyBlocks C (rdim f) f.vars (R f) e = 0 ↔ W *ᵥ -vec (e v) (K v.ty).ops.tangentDim = 0 := by
    intro f hf v hv
    have hr : rdim f = (K v.ty).ops.tangentDim := (hwf f hf).2 v (by simp [hv])
    have hn := hnoise f hf v (by simp [hv])
    obtain ⟨P, hP⟩ := hfs f hf
    have hF : F f.cls = priorFactorClass (K v.ty).ops := by
      cases hP with
      | prior cls u mu noise hF hmu =>
        obtain rfl : u = v := by simpa [PriorFactor.make] using hv
        exact hF
      | between cls a b M noise f hF hM hf => obtain ⟨-, -, rfl⟩ := between_make_ok hf; simp at hv
    obtain ⟨W, hW, hb⟩ := prior_blocks (C := C) (K v.ty) hv hF (hld v) hn.1 hn.2 ((hw f hf).2.trans hr) (hR f hf)
    refine ⟨W, hW, fun e => ?_⟩
    rw [hr, hb e]
  have hbetween : ∀ f ∈ fs, ∀ a b, f.vars = [a, b] → a.ty = b.ty ∧
      ∃ W : Matrix (Fin (K a.ty).ops.tangentDim) (Fin (K a.ty).ops.tangentDim) ℝ, W.det ≠ 0 ∧
      ∀ e : Var → List ℝ, applyBlocks C (rdim f) f.vars (R f) e = 0 ↔
        W *ᵥ (adMat (K a.ty) ((K a.ty).ops.inverse ((K a.ty).ops.multiply ((K a.ty).ops.inverse (pose a)) (pose b))) *ᵥ
          vec (e a) (K a.ty).ops.tangentDim - vec (e b) (K a.ty).ops.tangentDim) = 0 := by
    intro f hf a b hv
    have hr : rdim f = (K a.ty).ops.tangentDim := (hwf f hf).2 a (by simp [hv])
    have hn := hnoise f hf a (by simp [hv])
    obtain ⟨P, hP⟩ := hfs f hf
    have hF : F f.cls = betweenFactorClass (K a.ty).ops ∧ a.ty = b.ty := by
      cases hP with
      | prior cls u mu noise hF hmu => simp [PriorFactor.make] at hv
      | between cls a' b' M noise f hF hM hf =>
        obtain ⟨h1, -, rfl⟩ := between_make_ok hf
        obtain ⟨rfl, rfl⟩ : a' = a ∧ b' = b := by simpa using hv
        exact ⟨hF, h1⟩
    obtain ⟨hF, hab⟩ := hF
    refine ⟨hab, ?_⟩
    obtain ⟨W, hW, hb⟩ := between_blocks (C := C) (K a.ty) hv hF (hld a) (by rw [hld b, hab]) hn.1 hn.2
      (val := poseValue K pose) (x := pose a) (y := pose b) rfl (by rw [poseValue, hab]) ((hw f hf).2.trans hr) (hR f hf)
    refine ⟨W, hW, fun e => ?_⟩
    rw [hr, hb e]
  constructor
  · intro hanch
    apply m1
    intro e hlen hz v hv
    have key : ∀ v, Anchored fs v → vec (e v) (K v.ty).ops.tangentDim = 0 := by
      intro v hv
      induction hv with
      | prior hf hv =>
        obtain ⟨W, hW, hb⟩ := hprior _ hf _ hv
        have := Matrix.eq_zero_of_mulVec_eq_zero hW ((hb e).1 (hz _ hf))
        rwa [neg_eq_zero] at this
      | @forward f a b hf hv _ ih =>
        obtain ⟨hab, W, hW, hb⟩ := hbetween _ hf _ _ hv
        have := Matrix.eq_zero_of_mulVec_eq_zero hW ((hb e).1 (hz _ hf))
        rw [ih, mulVec_zero, zero_sub, neg_eq_zero] at this
        rw [← hab]; exact this
      | @backward f a b hf hv _ ih =>
        obtain ⟨hab, W, hW, hb⟩ := hbetween _ hf _ _ hv
        have h0 := Matrix.eq_zero_of_mulVec_eq_zero hW ((hb e).1 (hz _ hf))
        rw [← hab] at ih
        rw [ih, sub_zero] at h0
        have hva : (K a.ty).Valid (pose a) := hval hf (by simp [hv])
        have hvb : (K a.ty).Valid (pose b) := by rw [hab]; exact hval hf (by simp [hv])
        have L := lieLaws (K a.ty)
        have hX := L.mul _ _ (L.inv _ hva) hvb
        have hdet : (adMat (K a.ty) ((K a.ty).ops.inverse ((K a.ty).ops.multiply ((K a.ty).ops.inverse (pose a)) (pose b)))).det ≠ 0 := by
          have h1 := congrArg Matrix.det (adMat_inv_mul (K a.ty) hX)
          rw [det_mul, det_one] at h1
          exact left_ne_zero_of_mul_eq_one h1
        exact Matrix.eq_zero_of_mulVec_eq_zero hdet h0
    have h0 := key v (hanch v ((hmem v).1 hv))
    rw [vec_eq_zero_iff ((hlen v hv).trans (hld v)), List.eq_replicate_iff] at h0
    exact h0.2
  · rintro ⟨u, hu, hna⟩
    classical
    -- move the part of the world that is not tied, in the group of `u`
    obtain ⟨ξ, hξ⟩ : ∃ ξ : (k : LieType) → Fin k.ops.tangentDim → ℝ, ξ = fun _ _ => 1 := ⟨_, rfl⟩
    obtain ⟨e, he⟩ : ∃ e : Var → List ℝ, e = fun v => List.ofFn
        (if Anchored fs v then 0 else adMat (K v.ty) ((K v.ty).ops.inverse (pose v)) *ᵥ ξ (K v.ty)) := ⟨_, rfl⟩
    have hev : ∀ v : Var, vec (e v) (K v.ty).ops.tangentDim =
        if Anchored fs v then 0 else adMat (K v.ty) ((K v.ty).ops.inverse (pose v)) *ᵥ ξ (K v.ty) := by
      intro v; rw [he]; exact vec_ofFn' _
    refine m2 e (fun v _ => by rw [he, hld]; simp) (fun f hf => ?_) ⟨u, (hmem u).2 hu, ?_⟩
    · obtain ⟨P, hP⟩ := hfs f hf
      have hvs : (∃ v, f.vars = [v]) ∨ ∃ a b, f.vars = [a, b] := by
        cases hP with
        | prior cls v mu noise hF hmu => exact .inl ⟨v, rfl⟩
        | between cls a b M noise f hF hM hf => obtain ⟨-, -, rfl⟩ := between_make_ok hf; exact .inr ⟨a, b, rfl⟩
      rcases hvs with ⟨v, hv⟩ | ⟨a, b, hv⟩
      · obtain ⟨W, hW, hb⟩ := hprior f hf v hv
        rw [hb, hev, if_pos (Anchored.prior hf hv), neg_zero, mulVec_zero]
      · obtain ⟨hab, W, hW, hb⟩ := hbetween f hf a b hv
        rw [hb, hev a]
        have hevb : vec (e b) (K a.ty).ops.tangentDim =
            if Anchored fs b then 0 else adMat (K a.ty) ((K a.ty).ops.inverse (pose b)) *ᵥ ξ (K a.ty) := by
          rw [hab]; exact hev b
        rw [hevb]
        by_cases ha : Anchored fs a
        · rw [if_pos ha, if_pos (Anchored.forward hf hv ha), mulVec_zero, sub_zero, mulVec_zero]
        · rw [if_neg ha, if_neg fun hb => ha (Anchored.backward hf hv hb), mulVec_mulVec,
            adMat_between (K a.ty) (hval hf (by simp [hv])) (by rw [hab]; exact hval hf (by simp [hv])), sub_self, mulVec_zero]
    · by_contra hall
      push Not at hall
      have h0 : vec (e u) (K u.ty).ops.tangentDim = 0 := by
        rw [vec_eq_zero_iff (by rw [he]; simp), List.eq_replicate_iff]
        exact ⟨by rw [he]; simp, hall⟩
      rw [hev u, if_neg hna] at h0
      have hvu : (K u.ty).Valid (pose u) := hpose u hu
      have hdet : (adMat (K u.ty) ((K u.ty).ops.inverse (pose u))).det ≠ 0 := by
        have h1 := congrArg Matrix.det (adMat_inv_mul (K u.ty) hvu)
        rw [det_mul, det_one] at h1
        exact left_ne_zero_of_mul_eq_one h1
      have := congrFun (Matrix.eq_zero_of_mulVec_eq_zero hdet h0) ⟨0, lie_tangent_pos _⟩
      rw [hξ] at this
      simp at this

namespace AnchoredEx

theorem measures : ∀ f ∈ PoseEx.fs, ∃ P, Measures PoseEx.F PoseEx.K f P := by
  intro f hf
  simp only [PoseEx.fs, List.mem_cons, List.not_mem_nil, or_false] at hf
  rcases hf with rfl | rfl | rfl
  exacts [⟨_, PoseEx.measures.1⟩, ⟨_, PoseEx.measures.2.1⟩, ⟨_, PoseEx.measures.2.2⟩]

/-- The part of the graph with the planar poses. -/
noncomputable def planar : List Factor := [PoseEx.prior, PoseEx.step]

theorem planar_sub {f : Factor} (hf : f ∈ planar) : f ∈ PoseEx.fs := by
  simp only [planar, PoseEx.fs, List.mem_cons, List.not_mem_nil, or_false] at hf ⊢
  tauto

/-- No chain of measurements from a prior reaches the rotations. -/
theorem r_not : ¬ Anchored PoseEx.fs PoseEx.r := by
  have key : ∀ v, Anchored PoseEx.fs v → v = PoseEx.x ∨ v = PoseEx.y := by
    intro v hv
    induction hv with
    | prior hf hv =>
      simp only [PoseEx.fs, List.mem_cons, List.not_mem_nil, or_false] at hf
      rcases hf with rfl | rfl | rfl <;> simp_all [PoseEx.prior, PoseEx.step, PoseEx.turn, PriorFactor.make]
    | forward hf hv _ ih =>
      simp only [PoseEx.fs, List.mem_cons, List.not_mem_nil, or_false] at hf
      rcases hf with rfl | rfl | rfl
      · simp [PoseEx.prior, PriorFactor.make] at hv
      · simp only [PoseEx.step, List.cons.injEq, and_true] at hv
        exact .inr hv.2.symm
      · simp only [PoseEx.turn, List.cons.injEq, and_true] at hv
        rw [← hv.1] at ih
        exact absurd ih (by decide)
    | backward hf hv _ ih =>
      simp only [PoseEx.fs, List.mem_cons, List.not_mem_nil, or_false] at hf
      rcases hf with rfl | rfl | rfl
      · simp [PoseEx.prior, PriorFactor.make] at hv
      · simp only [PoseEx.step, List.cons.injEq, and_true] at hv
        exact .inl hv.1.symm
      · simp only [PoseEx.turn, List.cons.injEq, and_true] at hv
        rw [← hv.2] at ih
        exact absurd ih (by decide)
  intro h
  exact absurd (key _ h) (by decide)

theorem noise : ∀ f ∈ PoseEx.fs, ∀ v ∈ f.vars, NoiseWF f.noise (PoseEx.K v.ty).ops.tangentDim (PoseEx.K v.ty).ops.tangentDim ∧
    NoiseRegular f.noise (PoseEx.K v.ty).ops.tangentDim := by
  intro f hf v hv
  simp only [PoseEx.fs, List.mem_cons, List.not_mem_nil, or_false] at hf
  rcases hf with rfl | rfl | rfl
  · obtain rfl : v = PoseEx.x := by simpa [PoseEx.prior, PriorFactor.make] using hv
    exact ⟨⟨⟨rfl, rfl⟩, rfl⟩, by simp [NoiseRegular, PoseEx.prior, PriorFactor.make]⟩
  · rcases (by simpa [PoseEx.step] using hv : v = PoseEx.x ∨ v = PoseEx.y) with rfl | rfl <;>
      exact ⟨⟨⟨⟨rfl, rfl⟩, rfl⟩, 1, rfl, one_pos⟩, by simp [NoiseRegular, PoseEx.step]⟩
  · rcases (by simpa [PoseEx.turn] using hv : v = PoseEx.r ∨ v = PoseEx.s) with rfl | rfl <;>
      exact ⟨⟨⟨rfl, rfl⟩, rfl⟩, by simp [NoiseRegular, PoseEx.turn]⟩

theorem holds : ∃ a, Holds PoseEx.C planar [PoseEx.x, PoseEx.y] (poseValue PoseEx.K (PoseEx.pose false)) a := by
  have hsub : ∀ v ∈ [PoseEx.x, PoseEx.y], v ∈ [PoseEx.x, PoseEx.y, PoseEx.r, PoseEx.s] := fun v hv => by simp at hv ⊢; tauto
  have hget : ∀ v ∈ [PoseEx.x, PoseEx.y], (⟨[PoseEx.x, PoseEx.y].map fun v => (v, poseValue PoseEx.K (PoseEx.pose false) v)⟩ :
      PyDict Var (Value ℝ)).get? v = some (poseValue PoseEx.K (PoseEx.pose false) v) := by
    intro v hv
    simp only [List.mem_cons, List.not_mem_nil, or_false] at hv
    rcases hv with rfl | rfl <;> rfl
  obtain ⟨⟨a, h1, h2, h3, h4, h5⟩, -⟩ := C07_partial_and_defaults PoseEx.C (fun t => lie_wellShaped _) [PoseEx.x, PoseEx.y]
    (by decide) (by decide) ⟨[PoseEx.x, PoseEx.y].map fun v => (v, poseValue PoseEx.K (PoseEx.pose false) v)⟩ (fun v hv z hz => by
      rw [hget v hv] at hz
      obtain rfl := Option.some.inj hz
      exact (isValueOf_lie _).2 ⟨_, rfl, (lieLaws _).len _ (PoseEx.pose_valid false v (hsub v hv))⟩)
  refine ⟨a, h2, h3, fun v => ?_, fun v hv => h4 v hv _ (hget v hv)⟩
  simp [planar, PoseEx.prior, PoseEx.step, PriorFactor.make]

end AnchoredEx

/-- The concrete case: with the rotations, of which none has a prior, `PoseEx.fs` has no covariances at any poses; the part with the
planar poses, where the second pose is known through the first, has them. -/
example (lib : CholmodChoice) : ∃ g a, Graph.make PoseEx.C PoseEx.fs = .ok g ∧
    Holds PoseEx.C PoseEx.fs [PoseEx.x, PoseEx.y, PoseEx.r, PoseEx.s] (poseValue PoseEx.K (PoseEx.pose false)) a ∧
    SparseCovariance.make lib PoseEx.F PoseEx.C g a = .error .value := by
  obtain ⟨a, ha⟩ := PoseEx.holds false
  obtain ⟨g, hg, -, h⟩ := C104_anchored lib PoseEx.F PoseEx.C PoseEx.K (fun _ => rfl) PoseEx.fs (by simp [PoseEx.fs])
    AnchoredEx.measures AnchoredEx.noise _ (PoseEx.pose false) (PoseEx.pose_valid false) a ha
  exact ⟨g, a, hg, ha, h ⟨PoseEx.r, by simp, AnchoredEx.r_not⟩⟩

example (lib : CholmodChoice) : ∃ g a, Graph.make PoseEx.C AnchoredEx.planar = .ok g ∧
    Holds PoseEx.C AnchoredEx.planar [PoseEx.x, PoseEx.y] (poseValue PoseEx.K (PoseEx.pose false)) a ∧
    ∃ c, SparseCovariance.make lib PoseEx.F PoseEx.C g a = .ok c := by
  obtain ⟨a, ha⟩ := AnchoredEx.holds
  obtain ⟨g, hg, h, -⟩ := C104_anchored lib PoseEx.F PoseEx.C PoseEx.K (fun _ => rfl) AnchoredEx.planar (by simp [AnchoredEx.planar])
    (fun f hf => AnchoredEx.measures f (AnchoredEx.planar_sub hf)) (fun f hf => AnchoredEx.noise f (AnchoredEx.planar_sub hf)) _
    (PoseEx.pose false) (fun v hv => PoseEx.pose_valid false v (by simp at hv ⊢; tauto)) a ha
  refine ⟨g, a, hg, ha, h fun v hv => ?_⟩
  have hx : Anchored AnchoredEx.planar PoseEx.x := .prior (f := PoseEx.prior) (by simp [AnchoredEx.planar]) rfl
  simp only [List.mem_cons, List.not_mem_nil, or_false] at hv
  rcases hv with rfl | rfl
  · exact hx
  · exact .forward (f := PoseEx.step) (by simp [AnchoredEx.planar]) rfl hx

end Jaxfg.Props
