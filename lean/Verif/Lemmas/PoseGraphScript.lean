/- The factors of a g2o file, with and without Huber losses, and their weighted residuals. -/
import Verif.Spec.PoseGraphScript
import Verif.Model.PoseGraphScript
import Verif.Lemmas.G2oAny
import Verif.Props.Noise
import Verif.Props.Geometry
import Verif.Props.G2oAny
import Verif.Props.Assign
import Verif.Lemmas.Lift
import Verif.Lemmas.DefaultJacobian

namespace Jaxfg
open Spec
open Matrix hiding vec

theorem g2oClasses_eq (t : Ty) : g2oClasses t = (fileGroup t).ops.varClass := by
  unfold g2oClasses g2oGroup fileGroup
  split <;> rfl

theorem fileGroup_fileTy {k : LieType} (hk : k = .se2 ∨ k = .se3) : fileGroup k.fileTy = k := by
  rcases hk with rfl | rfl <;> decide

/-! ### What the lines guarantee -/

/-- Poses and edges as files describe them. -/
structure SoundGraph (g : PoseGraph) : Prop where
  poses : ∀ p ∈ g.poses, (p.1 = .se2 ∨ p.1 = .se3) ∧ p.2.length = p.1.ops.parametersDim ∧ (p.1 = .se2 → p.1.Valid p.2)
  edges : ∀ e ∈ g.edges, e.T.length = e.k.ops.parametersDim ∧ (∃ x, g.poses[e.a]? = some (e.k, x)) ∧ ∃ y, g.poses[e.b]? = some (e.k, y)

theorem reads_vertex {R : Reader} {k : LieType} {ps : List (List Char)} {i : Int} {x : List ℝ} (h : Reads R k ps (.vertex i x)) :
    (k = .se2 ∨ k = .se3) ∧ x.length = k.ops.parametersDim ∧ (k = .se2 → k.Valid x) := by
  cases h with
  | vertex2 hn hx => exact ⟨.inl rfl, rfl, fun _ => ⟨_, _, _, _, rfl, Real.cos_sq_add_sin_sq _⟩⟩
  | vertex3 hn hx => exact ⟨.inr rfl, rfl, fun h => by cases h⟩

theorem reads_edge {R : Reader} {k : LieType} {ps : List (List Char)} {i j : Int} {T : List ℝ}
    {P : Matrix (Fin k.ops.tangentDim) (Fin k.ops.tangentDim) ℝ} (h : Reads R k ps (.edge i j T P)) :
    T.length = k.ops.parametersDim := by
  cases h <;> rfl

theorem SoundGraph.lines {R : Reader} {limit : Int} {g g' : PoseGraph} {ls : List (List Char)} (h : LinesSay R limit g ls g')
    (hg : SoundGraph g) : SoundGraph g' := by
  induction h with
  | nil => exact hg
  | cons hp hl hs ih =>
    apply ih
    cases hl with
    | pose h hlim =>
      refine ⟨fun p hp => ?_, fun e he => ?_⟩
      · rcases List.mem_append.1 hp with hp | hp
        · exact hg.poses p hp
        · obtain rfl := List.mem_singleton.1 hp
          exact reads_vertex h
      · obtain ⟨h1, ⟨x, hx⟩, y, hy⟩ := hg.edges e he
        exact ⟨h1, ⟨x, by rw [List.getElem?_append_left (List.getElem?_eq_some_iff.1 hx).1]; exact hx⟩,
          y, by rw [List.getElem?_append_left (List.getElem?_eq_some_iff.1 hy).1]; exact hy⟩
    | skipPose => exact hg
    | edge h _ _ _ _ hx hy =>
      refine ⟨hg.poses, fun e he => ?_⟩
      rcases List.mem_append.1 he with he | he
      · exact hg.edges e he
      · obtain rfl := List.mem_singleton.1 he
        exact ⟨reads_edge h, ⟨_, hx⟩, _, hy⟩
    | skipEdge => exact hg

theorem soundGraph {R : Reader} {limit : Int} {lines : List (List Char)} {g : PoseGraph} (h : FileSays R limit lines g) :
    SoundGraph g := .lines h.1 ⟨fun p hp => (by cases hp), fun e he => (by cases he)⟩

/-! ### Factors -/

theorem noiseDim_of_wf {N : Noise} {n : Nat} (hN : NoiseWF N n n) : noiseDim N = n := by
  induction N with
  | gaussian W => simp [noiseDim, hN.1]
  | diagonal d => simp [noiseDim, hN.1.1]
  | huber w _ ih => exact ih hN.1

/-- The script's change of a factor. -/
def withHuber : Option ℝ → Factor → Factor
  | none, f => f
  | some δ, f => wrapHuber δ f

theorem scriptFactors_eq (huber : Option ℝ) (data : G2oData) : scriptFactors huber data = data.factors.map (withHuber huber) := by
  cases huber with
  | none => exact (List.map_id _).symm
  | some δ => rfl

theorem withHuber_vars (huber : Option ℝ) (f : Factor) : (withHuber huber f).vars = f.vars := by cases huber <;> rfl
theorem withHuber_cls (huber : Option ℝ) (f : Factor) : (withHuber huber f).cls = f.cls := by cases huber <;> rfl
theorem withHuber_params (huber : Option ℝ) (f : Factor) : (withHuber huber f).params = f.params := by cases huber <;> rfl

theorem withHuber_noise {huber : Option ℝ} (hh : ∀ δ, huber = some δ → 0 < δ) {f : Factor} {n m : Nat} (h : NoiseWF f.noise n m) :
    NoiseWF (withHuber huber f).noise n m := by
  cases huber with
  | none => exact h
  | some δ => exact ⟨h, δ, rfl, hh δ rfl⟩

/-- The squared norm of a whitened residual becomes the robust loss. -/
theorem withHuber_whiten {huber : Option ℝ} (hh : ∀ δ, huber = some δ → 0 < δ) {f : Factor} {r w : List ℝ} (hw : f.noise.whiten r = .ok w) :
    ∃ w', (withHuber huber f).noise.whiten r = .ok w' ∧ sqNorm w' = robustLoss huber (sqNorm w) := by
  cases huber with
  | none => exact ⟨w, hw, rfl⟩
  | some δ =>
    obtain ⟨v, h1, h2, h3, -⟩ := Props.C29_huber_whitening f.noise δ (hh δ rfl) r w hw
    refine ⟨v, h1, ?_⟩
    show _ = min _ _
    have h0 := Real.sqrt_nonneg (sqNorm w)
    have hs := Real.mul_self_sqrt (sqNorm_nonneg w)
    rcases lt_or_ge (Real.sqrt (sqNorm w)) δ with h | h
    · rw [h2 h, min_eq_left (by nlinarith)]
    · rw [h3 h, min_eq_right (by nlinarith)]

section
variable {F : Nat → FactorClass} {C : Ty → VarClass ℝ}

theorem between_wf (k : LieType) {f : Factor} {a b : Var} (hv : f.vars = [a, b]) (hF : F f.cls = betweenFactorClass k.ops)
    {T : List ℝ} (hp : f.params = (k.ops.value T).leaves) (hT : T.length = k.ops.parametersDim)
    (hn : NoiseWF f.noise k.ops.tangentDim k.ops.tangentDim) (ha : C a.ty = k.ops.varClass) (hb : C b.ty = k.ops.varClass) :
    FactorWF F C f := by
  have hr : rdim f = k.ops.tangentDim := noiseDim_of_wf hn
  refine ⟨?_, by rw [hv]; simp, ?_, ?_, ?_, ?_, ?_⟩
  · rw [hr]; exact lie_tangent_pos _
  · rw [hr]; exact hn
  · intro p hp'
    rw [hp] at hp'
    simp only [LieGroup.value, List.mem_singleton] at hp'
    subst hp'
    simpa using hT
  · rw [hv, hF]
    simp only [List.map_cons, List.map_nil, ha, hb]
    exact List.Forall₂.cons (lie_treedef _) (List.Forall₂.cons (lie_treedef _) List.Forall₂.nil)
  · intro vals _
    rw [hr, hF]
    exact (lieLaws k).log_len _
  · intro vals _
    rw [hF, hr, hv]
    refine List.Forall₂.cons ?_ (List.Forall₂.cons ?_ List.Forall₂.nil)
    · rw [ha]; exact (lieLaws k).adjoint _
    · rw [hb]; exact negEye_isMat _

theorem prior_wf (k : LieType) {f : Factor} {a : Var} (hv : f.vars = [a]) (hF : F f.cls = priorFactorClass k.ops)
    {T : List ℝ} (hp : f.params = (k.ops.value T).leaves) (hT : T.length = k.ops.parametersDim)
    (hn : NoiseWF f.noise k.ops.tangentDim k.ops.tangentDim) (ha : C a.ty = k.ops.varClass) :
    FactorWF F C f := by
  have hr : rdim f = k.ops.tangentDim := noiseDim_of_wf hn
  refine ⟨?_, by rw [hv]; simp, ?_, ?_, ?_, ?_, ?_⟩
  · rw [hr]; exact lie_tangent_pos _
  · rw [hr]; exact hn
  · intro p hp'
    rw [hp] at hp'
    simp only [LieGroup.value, List.mem_singleton] at hp'
    subst hp'
    simpa using hT
  · rw [hv, hF]
    simp only [List.map_cons, List.map_nil, ha]
    exact List.Forall₂.cons (lie_treedef _) List.Forall₂.nil
  · intro vals _
    rw [hr, hF]
    exact (lieLaws k).log_len _
  · intro vals _
    rw [hF, hr, hv]
    refine List.Forall₂.cons ?_ List.Forall₂.nil
    rw [ha]; exact negEye_isMat _

end

/-- The loss of an edge. -/
theorem edge_whitened {huber : Option ℝ} (hh : ∀ δ, huber = some δ → 0 < δ) {k : LieType} {a b : Var} {T : List ℝ}
    {P : Matrix (Fin k.ops.tangentDim) (Fin k.ops.tangentDim) ℝ} {f : Factor} (hf : IsEdgeFactor k a b T P f)
    {val : Var → Value ℝ} {x y : List ℝ} (hx : val a = k.ops.value x) (hy : val b = k.ops.value y) :
    ∃ w, whitenedAt g2oFactors val (withHuber huber f) = .ok w ∧
      sqNorm w = robustLoss huber (vec (edgeError k T x y) k.ops.tangentDim ⬝ᵥ (P *ᵥ vec (edgeError k T x y) k.ops.tangentDim)) := by
  have hr : (g2oFactors (withHuber huber f).cls).residual (withHuber huber f).self ((withHuber huber f).vars.map val) = edgeError k T x y := by
    rw [withHuber_cls, withHuber_vars, hf.cls, hf.vars]
    show k.ops.rminus (k.ops.multiply (k.ops.inverse (val a).flatten) (val b).flatten)
      (((withHuber huber f).params.getD 0 ⟨[], []⟩).data) = _
    rw [withHuber_params, hf.params, hx, hy]
    simp [LieGroup.value, Value.flatten, edgeError, LieGroup.rminus]
  obtain ⟨w, h1, h2⟩ := hf.weight (edgeError k T x y) ((lieLaws k).log_len _)
  obtain ⟨w', h3, h4⟩ := withHuber_whiten hh h1
  refine ⟨w', ?_, by rw [h4, h2]⟩
  unfold whitenedAt
  rw [hr, h3]

/-- The loss of the anchor. -/
theorem anchor_whitened {huber : Option ℝ} (hh : ∀ δ, huber = some δ → 0 < δ) {k : LieType} {a : Var} {mu : List ℝ} {f : Factor}
    (hf : IsAnchor k a mu f) {val : Var → Value ℝ} {x : List ℝ} (hx : val a = k.ops.value x) :
    ∃ w, whitenedAt g2oFactors val (withHuber huber f) = .ok w ∧
      sqNorm w = robustLoss huber (100 ^ 2 * sqNorm (k.ops.log (k.ops.multiply (k.ops.inverse x) mu))) := by
  have hr : (g2oFactors (withHuber huber f).cls).residual (withHuber huber f).self ((withHuber huber f).vars.map val) =
      k.ops.log (k.ops.multiply (k.ops.inverse x) mu) := by
    rw [withHuber_cls, withHuber_vars, hf.cls, hf.vars]
    show k.ops.rminus (val a).flatten (((withHuber huber f).params.getD 0 ⟨[], []⟩).data) = _
    rw [withHuber_params, hf.params, hx]
    simp [LieGroup.value, Value.flatten, LieGroup.rminus]
  obtain ⟨w, h1, h2⟩ := hf.weight _ ((lieLaws k).log_len _)
  obtain ⟨w', h3, h4⟩ := withHuber_whiten hh h1
  refine ⟨w', ?_, by rw [h4, h2]⟩
  unfold whitenedAt
  rw [hr, h3]

/-! ### The problem -/

theorem forall₂_mem_left {α β : Type _} {R : α → β → Prop} {l : List α} {l' : List β} (h : List.Forall₂ R l l') {a : α}
    (ha : a ∈ l) : ∃ b ∈ l', R a b := by
  obtain ⟨b, h1, h2⟩ := forall₂_mem_right h.flip ha
  exact ⟨b, h1, h2⟩

/-- The parts of the problem that the script builds. -/
theorem script_parts {huber : Option ℝ} (hh : ∀ δ, huber = some δ → 0 < δ) {g : PoseGraph} (hg : SoundGraph g) {data : G2oData}
    (h : DescribesGraph g data) :
    ∃ vars : List Var, vars.Nodup ∧ vars.map (·.ty) = g.poses.map (·.1.fileTy) ∧ data.initialPoses.keys = vars ∧ vars ≠ [] ∧
      (∀ (i : Nat) (v : Var) (k : LieType) x, vars[i]? = some v → g.poses[i]? = some (k, x) → data.initialPoses.get? v = some (k.ops.value x)) ∧
      (∀ v x, data.initialPoses.get? v = some x → ∃ (i : Nat) (k : LieType) (y : List ℝ), vars[i]? = some v ∧ g.poses[i]? = some (k, y) ∧ x = k.ops.value y) ∧
      scriptFactors huber data ≠ [] ∧ (∀ f ∈ scriptFactors huber data, FactorWF g2oFactors g2oClasses f) ∧
      (∀ v, (∃ f ∈ scriptFactors huber data, v ∈ f.vars) ↔
        ∃ i, vars[i]? = some v ∧ (i = 0 ∨ ∃ e ∈ g.edges, e.a = i ∨ e.b = i)) ∧
      (∀ (val : Var → Value ℝ) (x : Nat → List ℝ),
        (∀ (i : Nat) (v : Var) (k : LieType) y, vars[i]? = some v → g.poses[i]? = some (k, y) → val v = k.ops.value (x i)) →
        ∃ w : Factor → List ℝ, (∀ f ∈ scriptFactors huber data, whitenedAt g2oFactors val f = .ok (w f)) ∧
          ((scriptFactors huber data).map fun f => sqNorm (w f)).sum = fileObjective huber g x) := by
  obtain ⟨vars, hnd, hty, hpo, fs, anchor, v₀, k, mu, hfs, hed, hv₀, hp₀, han⟩ := h
  have hlen : vars.length = g.poses.length := by simpa using congrArg List.length hty
  have hkeys : data.initialPoses.keys = vars := by
    unfold PyDict.keys
    rw [hpo, List.map_fst_zip (by simp [hlen])]
  have htype : ∀ (i : Nat) (v : Var) (k : LieType) x, vars[i]? = some v → g.poses[i]? = some (k, x) → v.ty = k.fileTy ∧ (k = .se2 ∨ k = .se3) := by
    intro i v k x h1 h2
    have e := congrArg (fun l : List Ty => l[i]?) hty
    simp only [List.getElem?_map, h1, h2, Option.map_some, Option.some.injEq] at e
    exact ⟨e, (hg.poses _ (List.mem_of_getElem? h2)).1⟩
  have hclass : ∀ (i : Nat) (v : Var) (k : LieType) x, vars[i]? = some v → g.poses[i]? = some (k, x) → g2oClasses v.ty = k.ops.varClass := by
    intro i v k x h1 h2
    obtain ⟨e1, e2⟩ := htype i v k x h1 h2
    rw [g2oClasses_eq, e1, fileGroup_fileTy e2]
  have hne : vars ≠ [] := by rintro rfl; cases hv₀
  have hv0 : vars[0]? = some v₀ := by rw [← List.head?_eq_getElem?]; exact hv₀
  have hp0 : g.poses[0]? = some (k, mu) := by rw [← List.head?_eq_getElem?]; exact hp₀
  have hk2 : (data.initialPoses.items.map (·.1)).Nodup := by
    have : data.initialPoses.items.map (·.1) = vars := hkeys
    rw [this]; exact hnd
  have hget1 : ∀ (i : Nat) (v : Var) (k : LieType) x, vars[i]? = some v → g.poses[i]? = some (k, x) →
      data.initialPoses.get? v = some (k.ops.value x) := by
    intro i v k x h1 h2
    have hm : (v, k.ops.value x) ∈ data.initialPoses.items := by
      rw [hpo]
      refine List.mem_of_getElem? (i := i) (List.getElem?_zip_eq_some.2 ⟨h1, ?_⟩)
      rw [List.getElem?_map, h2]; rfl
    exact (PyDict.get?_eq_some_iff hk2).2 hm
  have hget2 : ∀ v x, data.initialPoses.get? v = some x → ∃ (i : Nat) (k : LieType) (y : List ℝ), vars[i]? = some v ∧ g.poses[i]? = some (k, y) ∧ x = k.ops.value y := by
    intro v x hx
    have hm : (v, x) ∈ data.initialPoses.items := (PyDict.get?_eq_some_iff hk2).1 hx
    rw [hpo] at hm
    obtain ⟨i, hi⟩ := List.mem_iff_getElem?.1 hm
    obtain ⟨e1, e2⟩ := List.getElem?_zip_eq_some.1 hi
    rw [List.getElem?_map] at e2
    obtain ⟨⟨k, y⟩, e3, e4⟩ := Option.map_eq_some_iff.1 e2
    exact ⟨i, k, y, e1, e3, e4.symm⟩
  have hSF : scriptFactors huber data = fs.map (withHuber huber) ++ [withHuber huber anchor] := by
    rw [scriptFactors_eq, hfs, List.map_append]; rfl
  have hin : ∀ f ∈ fs, ∃ e ∈ g.edges, ∃ a b, vars[e.a]? = some a ∧ vars[e.b]? = some b ∧ IsEdgeFactor e.k a b e.T e.P f := by
    intro f hf
    obtain ⟨e, he, h⟩ := forall₂_mem_right hed hf
    exact ⟨e, he, h⟩
  have hin' : ∀ e ∈ g.edges, ∃ f ∈ fs, ∃ a b, vars[e.a]? = some a ∧ vars[e.b]? = some b ∧ IsEdgeFactor e.k a b e.T e.P f := by
    intro e he
    obtain ⟨f, hf, h⟩ := forall₂_mem_left hed he
    exact ⟨f, hf, h⟩
  refine ⟨vars, hnd, hty, hkeys, hne, hget1, hget2, by rw [hSF]; simp, ?_, ?_, ?_⟩
  · intro f hf
    rw [hSF] at hf
    rcases List.mem_append.1 hf with hf | hf
    · obtain ⟨f, hf₀, rfl⟩ := List.mem_map.1 hf
      obtain ⟨e, he, a, b, ha, hb, hE⟩ := hin f hf₀
      obtain ⟨hT, ⟨x, hx⟩, y, hy⟩ := hg.edges e he
      exact between_wf e.k (by rw [withHuber_vars]; exact hE.vars) (by rw [withHuber_cls]; exact hE.cls)
        (by rw [withHuber_params]; exact hE.params) hT (withHuber_noise hh hE.noise) (hclass _ _ _ _ ha hx) (hclass _ _ _ _ hb hy)
    · obtain rfl := List.mem_singleton.1 hf
      exact prior_wf k (by rw [withHuber_vars]; exact han.vars) (by rw [withHuber_cls]; exact han.cls)
        (by rw [withHuber_params]; exact han.params) (hg.poses _ (List.mem_of_getElem? hp0)).2.1 (withHuber_noise hh han.noise)
        (hclass _ _ _ _ hv0 hp0)
  · intro v
    rw [hSF]
    constructor
    · rintro ⟨f, hf, hv⟩
      rcases List.mem_append.1 hf with hf | hf
      · obtain ⟨f, hf₀, rfl⟩ := List.mem_map.1 hf
        obtain ⟨e, he, a, b, ha, hb, hE⟩ := hin f hf₀
        rw [withHuber_vars, hE.vars] at hv
        rcases (by simpa using hv : v = a ∨ v = b) with rfl | rfl
        · exact ⟨e.a, ha, .inr ⟨e, he, .inl rfl⟩⟩
        · exact ⟨e.b, hb, .inr ⟨e, he, .inr rfl⟩⟩
      · obtain rfl := List.mem_singleton.1 hf
        rw [withHuber_vars, han.vars] at hv
        obtain rfl := List.mem_singleton.1 hv
        exact ⟨0, hv0, .inl rfl⟩
    · rintro ⟨i, hi, rfl | ⟨e, he, h⟩⟩
      · obtain rfl : v₀ = v := Option.some.inj (hv0.symm.trans hi)
        exact ⟨_, List.mem_append_right _ (List.mem_singleton.2 rfl), by rw [withHuber_vars, han.vars]; simp⟩
      · obtain ⟨f, hf, a, b, ha, hb, hE⟩ := hin' e he
        refine ⟨_, List.mem_append_left _ (List.mem_map.2 ⟨f, hf, rfl⟩), ?_⟩
        rw [withHuber_vars, hE.vars]
        rcases h with rfl | rfl
        · rw [ha] at hi; cases hi; simp
        · rw [hb] at hi; cases hi; simp
  · intro val x hval
    have hw : ∀ f ∈ scriptFactors huber data, ∃ w, whitenedAt g2oFactors val f = .ok w := by
      intro f hf
      rw [hSF] at hf
      rcases List.mem_append.1 hf with hf | hf
      · obtain ⟨f, hf₀, rfl⟩ := List.mem_map.1 hf
        obtain ⟨e, he, a, b, ha, hb, hE⟩ := hin f hf₀
        obtain ⟨hT, ⟨y, hy⟩, z, hz⟩ := hg.edges e he
        obtain ⟨w, hw, -⟩ := edge_whitened hh hE (hval _ _ _ _ ha hy) (hval _ _ _ _ hb hz)
        exact ⟨w, hw⟩
      · obtain rfl := List.mem_singleton.1 hf
        obtain ⟨w, hw, -⟩ := anchor_whitened hh han (hval _ _ _ _ hv0 hp0)
        exact ⟨w, hw⟩
    choose! w hw using hw
    refine ⟨w, hw, ?_⟩
    rw [hSF, List.map_append, List.sum_append]
    unfold fileObjective
    congr 1
    · rw [List.map_map]
      have hw' : ∀ f ∈ fs, whitenedAt g2oFactors val (withHuber huber f) = .ok (w (withHuber huber f)) := fun f hf =>
        hw _ (by rw [hSF]; exact List.mem_append_left _ (List.mem_map.2 ⟨f, hf, rfl⟩))
      have hE' := hg.edges
      congr 1
      symm
      clear hin hin' hSF hfs
      generalize g.edges = es at hed hE'
      induction hed with
      | nil => rfl
      | cons h1 h2 ih =>
        rw [List.map_cons, List.map_cons]
        congr 1
        · obtain ⟨a, b, ha, hb, hE⟩ := h1
          obtain ⟨hT, ⟨y, hy⟩, z, hz⟩ := hE' _ (List.mem_cons_self ..)
          obtain ⟨w', h3, h4⟩ := edge_whitened hh hE (hval _ _ _ _ ha hy) (hval _ _ _ _ hb hz)
          have := hw' _ (List.mem_cons_self ..)
          obtain rfl := Except.ok.inj (h3.symm.trans this)
          exact h4.symm
        · exact ih (fun f hf => hw' f (List.mem_cons_of_mem _ hf)) fun e he => hE' e (List.mem_cons_of_mem _ he)
    · obtain ⟨w', h3, h4⟩ := anchor_whitened hh han (hval _ _ _ _ hv0 hp0)
      have := hw (withHuber huber anchor) (by rw [hSF]; simp)
      obtain rfl := Except.ok.inj (h3.symm.trans this)
      rw [hp₀]
      simp [h4]

/-- What the script hands to the solvers. -/
theorem script_problem (R : Reader) (limit : Int) (next : Nat) (lines : List (List Char)) (g : PoseGraph)
    (hfile : FileSays R limit lines g) (huber : Option ℝ) (hh : ∀ δ, huber = some δ → 0 < δ) : ∃ data G a vars, parseG2o R limit next lines = .ok data ∧ scriptProblem huber data = .ok (G, a) ∧
    Graph.make g2oClasses (scriptFactors huber data) = .ok G ∧ scriptFactors huber data ≠ [] ∧
    (∀ f ∈ scriptFactors huber data, FactorWF g2oFactors g2oClasses f) ∧
    (∀ v, (∃ f ∈ scriptFactors huber data, v ∈ f.vars) ↔ ∃ i, vars[i]? = some v ∧ (i = 0 ∨ ∃ e ∈ g.edges, e.a = i ∨ e.b = i)) ∧
    vars.Nodup ∧ data.initialPoses.keys = vars ∧ vars.map (·.ty) = g.poses.map (·.1.fileTy) ∧ IsAssignmentOf g2oClasses vars a ∧
    StoresPoses g vars (fun i => (g.poses.getD i (.se2, [])).2) a ∧
    ∀ (val : Var → Value ℝ) (x : Nat → List ℝ),
      (∀ (i : Nat) (v : Var) (k : LieType) y, vars[i]? = some v → g.poses[i]? = some (k, y) → val v = k.ops.value (x i)) →
      ∃ w : Factor → List ℝ, (∀ f ∈ scriptFactors huber data, whitenedAt g2oFactors val f = .ok (w f)) ∧
        ((scriptFactors huber data).map fun f => sqNorm (w f)).sum = fileObjective huber g x := by
  obtain ⟨data, hdata, hdesc⟩ := (Props.C62_any_file R limit next lines).2 g hfile
  have hsound := soundGraph hfile
  obtain ⟨vars, hnd, hty, hkeys, hne, hget1, hget2, hfne, hwf, hcov, hobj⟩ := script_parts hh hsound hdesc
  have hC : GoodClasses g2oClasses := lie_goodClasses g2oClasses_eq
  obtain ⟨G, hG, hGo⟩ := graph_ok (F := g2oFactors) hwf hfne
  have hval : ∀ v x, data.initialPoses.get? v = some x → IsValueOf (g2oClasses v.ty) x := by
    intro v x hx
    obtain ⟨i, k, y, h1, h2, rfl⟩ := hget2 v x hx
    obtain ⟨e1, e2, -⟩ := hsound.poses _ (List.mem_of_getElem? h2)
    have e := congrArg (fun l : List Ty => l[i]?) hty
    simp only [List.getElem?_map, h1, h2, Option.map_some, Option.some.injEq] at e
    rw [g2oClasses_eq, e, fileGroup_fileTy e1]
    exact (isValueOf_lie _).2 ⟨y, rfl, e2⟩
  obtain ⟨a, ha, h1, h2, -, h4, -⟩ := Props.C06_make_from_dict g2oClasses (fun t => (hC t).1) data.initialPoses
    (by rw [hkeys]; exact hnd) (by rw [hkeys]; exact hne) hval
  rw [hkeys] at h1
  refine ⟨data, G, a, vars, hdata, ?_, hG, hfne, hwf, hcov, hnd, hkeys, hty, h1, ⟨⟨_, h1, .refl _⟩, h2, ?_⟩, hobj⟩
  · unfold scriptProblem; rw [hG, ha]; rfl
  · intro i v k y hi hp
    rw [h4 v _ (hget1 i v k y hi hp), List.getD_eq_getElem?_getD, hp]
    rfl

end Jaxfg
