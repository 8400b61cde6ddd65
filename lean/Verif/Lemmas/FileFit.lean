/- The factors of a g2o file as measurements. -/
import Verif.Spec.FileFit
import Verif.Spec.Anchored
import Verif.Lemmas.PoseGraphScript

namespace Jaxfg
open Spec

theorem measures_edge {k : LieType} {a b : Var} {T : List ℝ} {P : Matrix (Fin k.ops.tangentDim) (Fin k.ops.tangentDim) ℝ} {f : Factor}
    (hf : IsEdgeFactor k a b T P f) (ha : fileGroup a.ty = k) (hb : a.ty = b.ty) (hT : k.Valid T) :
    Measures g2oFactors fileGroup f fun pose => k.motion (pose b) = k.motion (pose a) * k.motion T := by
  subst ha
  obtain ⟨cls, vars, noise, params⟩ := f
  obtain rfl : vars = [a, b] := hf.vars
  obtain rfl : params = _ := hf.params
  refine .between cls a b T noise _ hf.cls hT ?_
  have h2 : (fileGroup a.ty).ops.treedef = ((fileGroup a.ty).ops.value T).treedef := rfl
  unfold BetweenFactor.make
  rw [decide_eq_true hb, decide_eq_true h2]
  rfl

theorem measures_anchor {k : LieType} {a : Var} {mu : List ℝ} {f : Factor} (hf : IsAnchor k a mu f) (ha : fileGroup a.ty = k)
    (hmu : k.Valid mu) : Measures g2oFactors fileGroup f fun pose => k.motion (pose a) = k.motion mu := by
  subst ha
  obtain ⟨cls, vars, noise, params⟩ := f
  obtain rfl : vars = [a] := hf.vars
  obtain rfl : params = _ := hf.params
  exact .prior cls a mu noise hf.cls hmu

/-- A file that fits its edges at the poses `x` is a pose graph that fits exactly, tied to the world by the prior on pose 0. -/
theorem file_fit {g : PoseGraph} (hg : SoundGraph g) {data : G2oData} (h : DescribesGraph g data) {x : Nat → List ℝ}
    (hx : FitsFile g x) (ht : ∀ i < g.poses.length, TiedToFirst g i) :
    ∃ (vars : List Var) (pose : Var → List ℝ) (P : Factor → (Var → List ℝ) → Prop), data.initialPoses.keys = vars ∧ vars.Nodup ∧
      (∀ (i : Nat) v, vars[i]? = some v → pose v = x i) ∧
      (∀ (i : Nat) v (k : LieType) y, vars[i]? = some v → g.poses[i]? = some (k, y) → fileGroup v.ty = k) ∧
      vars.length = g.poses.length ∧
      data.factors ≠ [] ∧ (∀ f ∈ data.factors, Measures g2oFactors fileGroup f (P f) ∧ P f pose ∧ NoiseGaussian f.noise ∧
        ∀ v ∈ f.vars, v ∈ vars ∧ NoiseWF f.noise (fileGroup v.ty).ops.tangentDim (fileGroup v.ty).ops.tangentDim ∧
          NoiseRegular f.noise (fileGroup v.ty).ops.tangentDim) ∧
      ∀ v ∈ vars, Anchored data.factors v := by
  obtain ⟨vars, hnd, hty, hpo, fs, anchor, v₀, k, mu, hfs, hed, hv₀, hp₀, han⟩ := h
  have hlen : vars.length = g.poses.length := by simpa using congrArg List.length hty
  have hkeys : data.initialPoses.keys = vars := by
    unfold PyDict.keys
    rw [hpo, List.map_fst_zip (by simp [hlen])]
  have htype : ∀ (i : Nat) (v : Var) (k : LieType) y, vars[i]? = some v → g.poses[i]? = some (k, y) → v.ty = k.fileTy ∧ fileGroup v.ty = k := by
    intro i v k x h1 h2
    have e := congrArg (fun l : List Ty => l[i]?) hty
    simp only [List.getElem?_map, h1, h2, Option.map_some, Option.some.injEq] at e
    exact ⟨e, by rw [e, fileGroup_fileTy (hg.poses _ (List.mem_of_getElem? h2)).1]⟩
  have hv0 : vars[0]? = some v₀ := by rw [← List.head?_eq_getElem?]; exact hv₀
  have hp0 : g.poses[0]? = some (k, mu) := by rw [← List.head?_eq_getElem?]; exact hp₀
  have hpose : ∀ (i : Nat) v, vars[i]? = some v → x (vars.idxOf v) = x i := by
    intro i v hi
    obtain ⟨hi', rfl⟩ := List.getElem?_eq_some_iff.1 hi
    rw [hnd.idxOf_getElem]
  have one : ∀ f ∈ data.factors, ∃ Q : (Var → List ℝ) → Prop, Measures g2oFactors fileGroup f Q ∧ Q (fun v => x (vars.idxOf v)) ∧
      NoiseGaussian f.noise ∧ ∀ v ∈ f.vars, v ∈ vars ∧ NoiseWF f.noise (fileGroup v.ty).ops.tangentDim (fileGroup v.ty).ops.tangentDim ∧
          NoiseRegular f.noise (fileGroup v.ty).ops.tangentDim := by
    intro f hf
    rw [hfs] at hf
    rcases List.mem_append.1 hf with hf | hf
    · obtain ⟨e, he, a, b, ha, hb, hE⟩ := forall₂_mem_right hed hf
      obtain ⟨-, ⟨y, hy⟩, z, hz⟩ := hg.edges e he
      obtain ⟨hT, hfit⟩ := hx.edges e he
      obtain ⟨ta, ga⟩ := htype _ _ _ _ ha hy
      obtain ⟨tb, gb⟩ := htype _ _ _ _ hb hz
      refine ⟨_, measures_edge hE ga (by rw [ta, tb]) hT, ?_, hE.gaussian, fun v hv => ?_⟩
      · beta_reduce
        rw [hpose _ _ ha, hpose _ _ hb]
        exact hfit
      · rw [hE.vars] at hv
        have : fileGroup v.ty = e.k ∧ v ∈ vars := by
          rcases (by simpa using hv : v = a ∨ v = b) with rfl | rfl
          · exact ⟨ga, List.mem_of_getElem? ha⟩
          · exact ⟨gb, List.mem_of_getElem? hb⟩
        rw [this.1]
        exact ⟨this.2, hE.noise, hE.regular⟩
    · obtain rfl := List.mem_singleton.1 hf
      obtain ⟨-, g0⟩ := htype _ _ _ _ hv0 hp0
      obtain ⟨hmu, hfit⟩ := hx.first _ _ hp0
      refine ⟨_, measures_anchor han g0 hmu, ?_, han.gaussian, fun v hv => ?_⟩
      · beta_reduce
        rw [hpose _ _ hv0]
        exact hfit
      · rw [han.vars] at hv
        obtain rfl := List.mem_singleton.1 hv
        rw [g0]
        exact ⟨List.mem_of_getElem? hv0, han.noise, han.regular⟩
  have two : ∀ f, ∃ Q : (Var → List ℝ) → Prop, f ∈ data.factors → Measures g2oFactors fileGroup f Q ∧ Q (fun v => x (vars.idxOf v)) ∧
      NoiseGaussian f.noise ∧ ∀ v ∈ f.vars, v ∈ vars ∧ NoiseWF f.noise (fileGroup v.ty).ops.tangentDim (fileGroup v.ty).ops.tangentDim ∧
          NoiseRegular f.noise (fileGroup v.ty).ops.tangentDim := fun f => by
    by_cases hf : f ∈ data.factors
    · obtain ⟨Q, hQ⟩ := one f hf
      exact ⟨Q, fun _ => hQ⟩
    · exact ⟨fun _ => True, fun h => absurd h hf⟩
  choose P hP using two
  have tied : ∀ i, TiedToFirst g i → ∀ v, vars[i]? = some v → Anchored data.factors v := by
    intro i hi
    induction hi with
    | first =>
      intro v hv
      obtain rfl : v₀ = v := Option.some.inj (hv0.symm.trans hv)
      exact .prior (f := anchor) (by rw [hfs]; simp) han.vars
    | forward he _ ih =>
      intro v hv
      obtain ⟨f, hf, a, b, ha, hb, hE⟩ := forall₂_mem_left hed he
      obtain rfl : b = v := Option.some.inj (hb.symm.trans hv)
      exact .forward (f := f) (by rw [hfs]; exact List.mem_append_left _ hf) hE.vars (ih a ha)
    | backward he _ ih =>
      intro v hv
      obtain ⟨f, hf, a, b, ha, hb, hE⟩ := forall₂_mem_left hed he
      obtain rfl : a = v := Option.some.inj (ha.symm.trans hv)
      exact .backward (f := f) (by rw [hfs]; exact List.mem_append_left _ hf) hE.vars (ih b hb)
  refine ⟨vars, fun v => x (vars.idxOf v), P, hkeys, hnd, hpose, fun i v k y h1 h2 => (htype i v k y h1 h2).2, hlen, by rw [hfs]; simp,
    fun f hf => hP f hf, fun v hv => ?_⟩
  obtain ⟨i, hi⟩ := List.mem_iff_getElem?.1 hv
  exact tied i (ht i (hlen ▸ (List.getElem?_eq_some_iff.1 hi).1)) v hi

/-- Assignments in the storage order of a graph that hold given poses. -/
theorem pose_assignment {F : Nat → FactorClass} {C : Ty → VarClass ℝ} {K : Ty → LieType} (hK : ∀ t, C t = (K t).ops.varClass)
    {fs : List Factor} (hne : fs ≠ []) (hfs : ∀ f ∈ fs, FactorWF F C f) {g : Graph} (hg : Graph.make C fs = .ok g)
    {pose : Var → List ℝ} (hpose : ∀ v ∈ Graph.variablesOf fs, (K v.ty).Valid (pose v)) :
    ∃ a, Holds C fs (Graph.variablesOf fs) (poseValue K pose) a ∧ a.layout = g.layout := by
  obtain ⟨hnd, hmem⟩ := variablesOf_spec fs
  obtain ⟨g', hg', hG⟩ := graph_ok (F := F) hfs hne
  obtain rfl : g' = g := Except.ok.inj (hg'.symm.trans hg)
  have hvs : Graph.variablesOf fs ≠ [] := by
    obtain ⟨f, hf⟩ := List.exists_mem_of_ne_nil _ hne
    obtain ⟨v, hv⟩ := List.exists_mem_of_ne_nil _ (hfs f hf).vars
    exact List.ne_nil_of_mem ((hmem v).2 ⟨f, hf, hv⟩)
  generalize hd : (⟨(Graph.variablesOf fs).map fun v => (v, poseValue K pose v)⟩ : PyDict Var (Value ℝ)) = d
  have hget : ∀ v ∈ Graph.variablesOf fs, d.get? v = some (poseValue K pose v) := by
    intro v hv
    subst hd
    refine (PyDict.get?_eq_some_iff ?_).2 (List.mem_map.2 ⟨v, hv, rfl⟩)
    simpa [PyDict.keys, List.map_map, Function.comp_def] using hnd
  obtain ⟨⟨a, h1, h2, h3, h4, h5⟩, -⟩ := Props.C07_partial_and_defaults C (fun t => by rw [hK]; exact lie_wellShaped _)
    (Graph.variablesOf fs) hnd hvs d (fun v hv z hz => by
      rw [hget v hv] at hz
      obtain rfl := Option.some.inj hz
      rw [hK]
      exact (isValueOf_lie _).2 ⟨_, rfl, (lieLaws _).len _ (hpose v hv)⟩)
  refine ⟨a, ⟨h2, h3, hmem, fun v hv => h4 v hv _ (hget v hv)⟩, ?_⟩
  rw [h2.2.1, h3, hG.layout]

end Jaxfg
