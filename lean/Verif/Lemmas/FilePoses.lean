/- What the poses of a g2o file, other than pose 0, do not influence. -/
import Verif.Spec.FileFit
import Verif.Lemmas.PoseGraphScript

namespace Jaxfg
open Spec

/-- The same state with other initial values. -/
def G2oState.withPoses (s : G2oState) (d : PyDict Var (Value ℝ)) : G2oState := { s with initialPoses := d }

theorem addEdge_withPoses (s : G2oState) (d : PyDict Var (Value ℝ)) (i j : Int) (G : LieGroup) (T u : List ℝ) :
    (s.withPoses d).addEdge i j G T u = (s.addEdge i j G T u).map (·.withPoses d) := by
  unfold G2oState.addEdge
  cases precisionMatrix G.tangentDim u with
  | error e => rfl
  | ok P =>
    simp only [py_bind_ok]
    cases sqrtPrecision G.tangentDim P with
    | error e => rfl
    | ok W =>
      simp only [py_bind_ok, G2oState.withPoses]
      cases pyGet s.poseVariables i with
      | error e => rfl
      | ok a =>
        simp only [py_bind_ok]
        cases pyGet s.poseVariables j with
        | error e => rfl
        | ok b =>
          simp only [py_bind_ok]
          cases BetweenFactor.make (betweenCls G.treedef) (fun t => (g2oGroup t).treedef) a b (G.value T) (.gaussian W) with
          | error e => rfl
          | ok f => rfl

theorem edgeSE2_withPoses (R : Reader) (limit : Int) (s : G2oState) (d : PyDict Var (Value ℝ)) (ps : List (List Char)) :
    (s.withPoses d).edgeSE2 R limit ps = (s.edgeSE2 R limit ps).map (·.withPoses d) := by
  unfold G2oState.edgeSE2
  cases pyGet ps 1 with
  | error e => rfl
  | ok m =>
    simp only [py_bind_ok]
    cases R.int m with
    | error e => rfl
    | ok i =>
      simp only [py_bind_ok]
      cases pyGet ps 2 with
      | error e => rfl
      | ok n =>
        simp only [py_bind_ok]
        cases R.int n with
        | error e => rfl
        | ok j =>
          simp only [py_bind_ok]
          by_cases h : limit < i ∨ limit < j
          · rw [if_pos h, if_pos h]
            rfl
          · rw [if_neg h, if_neg h]
            cases ((ps.drop 3).take 3).mapM R.float with
            | error e => rfl
            | ok xs =>
              simp only [py_bind_ok]
              split
              · cases (ps.drop 6).mapM R.float with
                | error e => rfl
                | ok u =>
                  simp only [py_bind_ok]
                  exact addEdge_withPoses ..
              · rfl

theorem edgeSE3_withPoses (R : Reader) (s : G2oState) (d : PyDict Var (Value ℝ)) (ps : List (List Char)) :
    (s.withPoses d).edgeSE3 R ps = (s.edgeSE3 R ps).map (·.withPoses d) := by
  unfold G2oState.edgeSE3
  cases pyGet ps 1 with
  | error e => rfl
  | ok m =>
    simp only [py_bind_ok]
    cases R.int m with
    | error e => rfl
    | ok i =>
      simp only [py_bind_ok]
      cases pyGet ps 2 with
      | error e => rfl
      | ok n =>
        simp only [py_bind_ok]
        cases R.int n with
        | error e => rfl
        | ok j =>
          simp only [py_bind_ok]
          cases (ps.drop 3).mapM R.float with
          | error e => rfl
          | ok xs =>
            simp only [py_bind_ok]
            cases pyAssert (decide (xs.length = 7 + 21)) with
            | error e => rfl
            | ok _ =>
              simp only [py_bind_ok]
              exact addEdge_withPoses ..

/-- Two states that differ at most in the initial values of the same variables. -/
def SameBut (s t : G2oState) : Prop := ∃ d, t = s.withPoses d ∧ d.keys = s.initialPoses.keys

theorem sameBut_refl (s : G2oState) : SameBut s s := ⟨_, rfl, rfl⟩

theorem sameBut_addPose {s t : G2oState} (h : SameBut s t) (ty : Ty) (x y : List ℝ) : SameBut (s.addPose ty x) (t.addPose ty y) := by
  obtain ⟨d, rfl, hd⟩ := h
  refine ⟨_, rfl, ?_⟩
  show (d.set _ _).keys = (s.initialPoses.set _ _).keys
  rw [PyDict.keys_set, PyDict.keys_set, hd]
  rfl

theorem sameBut_count {s t : G2oState} (h : SameBut s t) : t.initialPoses.items.length = s.initialPoses.items.length := by
  obtain ⟨d, rfl, hd⟩ := h
  show d.items.length = s.initialPoses.items.length
  simpa [PyDict.keys] using congrArg List.length hd

theorem sameBut_vars {s t : G2oState} (h : SameBut s t) : t.poseVariables = s.poseVariables := by
  obtain ⟨d, rfl, -⟩ := h
  rfl

/-- Vertex lines with the same index. -/
theorem sameBut_vertex {R : Reader} {limit : Int} {s t s' t' : G2oState} (h : SameBut s t) {k : LieType} {ps ps' : List (List Char)} {n : Int}
    {x y : List ℝ} (hx : Reads R k ps (.vertex n x)) (hy : Reads R k ps' (.vertex n y)) (hs : s.line R limit ps = .ok s')
    (ht : t.line R limit ps' = .ok t') : SameBut s' t' := by
  rw [line_vertex hx] at hs
  rw [line_vertex hy, sameBut_vars h, sameBut_count h] at ht
  split_ifs at hs ht
  · cases hs; cases ht; exact h
  · cases hs; cases ht; exact sameBut_addPose h _ _ _

/-- The same line. -/
theorem sameBut_line {R : Reader} {limit : Int} {s t s' t' : G2oState} (h : SameBut s t) {ps : List (List Char)}
    (hs : s.line R limit ps = .ok s') (ht : t.line R limit ps = .ok t') : SameBut s' t' := by
  cases ps with
  | nil => cases hs
  | cons kind ps =>
    rw [line_cons] at hs ht
    split_ifs at hs ht
    · unfold G2oState.vertexSE2 at hs ht
      rw [sameBut_vars h, sameBut_count h] at ht
      split_ifs at hs ht
      · cases hs; cases ht; exact h
      · split at hs
        · rename_i heq
          rw [heq] at ht
          obtain ⟨i, hi, hs⟩ := py_bind_eq_ok.1 hs
          obtain ⟨a, ha, hs⟩ := py_bind_eq_ok.1 hs
          obtain ⟨b, hb, hs⟩ := py_bind_eq_ok.1 hs
          obtain ⟨c, hc, hs⟩ := py_bind_eq_ok.1 hs
          obtain ⟨u, hu, hs⟩ := py_bind_eq_ok.1 hs
          simp only [hi, ha, hb, hc, py_bind_ok, hu] at ht
          cases hs; cases ht
          exact sameBut_addPose h _ _ _
        · cases hs
    · obtain ⟨d, rfl, hd⟩ := h
      rw [edgeSE2_withPoses, hs] at ht
      cases ht
      have e := edgeSE2_withPoses R limit s s.initialPoses (kind :: ps)
      have e' : s.withPoses s.initialPoses = s := rfl
      rw [e', hs] at e
      have e1 : s' = s'.withPoses s.initialPoses := Except.ok.inj e
      have e2 : s'.initialPoses = s.initialPoses := (congrArg G2oState.initialPoses e1 :)
      exact ⟨d, rfl, by rw [e2, hd]⟩
    · unfold G2oState.vertexSE3 at hs ht
      rw [sameBut_count h] at ht
      split at hs
      · rename_i heq
        rw [heq] at ht
        obtain ⟨i, hi, hs⟩ := py_bind_eq_ok.1 hs
        obtain ⟨u, hu, hs⟩ := py_bind_eq_ok.1 hs
        obtain ⟨p, hp, hs⟩ := py_bind_eq_ok.1 hs
        simp only [hi, py_bind_ok, hu, hp] at ht
        cases hs; cases ht
        exact sameBut_addPose h _ _ _
      · cases hs
    · obtain ⟨d, rfl, hd⟩ := h
      rw [edgeSE3_withPoses, hs] at ht
      cases ht
      have e := edgeSE3_withPoses R s s.initialPoses (kind :: ps)
      have e' : s.withPoses s.initialPoses = s := rfl
      rw [e', hs] at e
      have e1 : s' = s'.withPoses s.initialPoses := Except.ok.inj e
      have e2 : s'.initialPoses = s.initialPoses := (congrArg G2oState.initialPoses e1 :)
      exact ⟨d, rfl, by rw [e2, hd]⟩

theorem sameBut_fold {R : Reader} {limit : Int} {lines lines' : List (List Char)} (h : SameButPoses R lines lines') {s t s' t' : G2oState}
    (hst : SameBut s t) (hs : lines.foldlM (fun s l => s.line R limit (fields l)) s = .ok s')
    (ht : lines'.foldlM (fun s l => s.line R limit (fields l)) t = .ok t') : SameBut s' t' := by
  induction h generalizing s t with
  | nil => cases hs; cases ht; exact hst
  | cons hl _ ih =>
    rw [List.foldlM_cons] at hs ht
    obtain ⟨s₁, h1, hs⟩ := py_bind_eq_ok.1 hs
    obtain ⟨t₁, h2, ht⟩ := py_bind_eq_ok.1 ht
    refine ih ?_ hs ht
    rcases hl with rfl | ⟨ps, ps', k, n, x, y, e1, e2, hx, hy⟩
    · exact sameBut_line hst h1 h2
    · rw [(fields_pieces.1 e1).1] at h1
      rw [(fields_pieces.1 e2).1] at h2
      exact sameBut_vertex hst hx hy h1 h2

theorem parse_ok {R : Reader} {limit : Int} {next : Nat} {lines : List (List Char)} {data : G2oData}
    (h : parseG2o R limit next lines = .ok data) : ∃ s v mu,
      lines.foldlM (fun s l => s.line R limit (fields l)) (⟨next, [], .empty, []⟩ : G2oState) = .ok s ∧
      pyGet s.poseVariables 0 = .ok v ∧ s.initialPoses.get v = .ok mu ∧ data.initialPoses = s.initialPoses ∧
      data.factors = s.factors ++ [PriorFactor.make (priorCls mu.treedef) v mu
        (.diagonal ⟨[(g2oGroup v.ty).tangentDim], List.replicate (g2oGroup v.ty).tangentDim (1 * 100)⟩)] := by
  unfold parseG2o at h
  obtain ⟨s, h1, h⟩ := py_bind_eq_ok.1 h
  obtain ⟨v, h2, h⟩ := py_bind_eq_ok.1 h
  obtain ⟨mu, h3, h⟩ := py_bind_eq_ok.1 h
  cases h
  exact ⟨s, v, mu, h1, h2, h3, rfl, rfl⟩

/-- The value in the prior is that of pose 0. -/
theorem first_pose {g : PoseGraph} (hg : SoundGraph g) {data : G2oData} (h : DescribesGraph g data) {fs : List Factor} {cls : Nat} {v : Var}
    {mu mu' : Value ℝ} {noise : Noise} (hf : data.factors = fs ++ [PriorFactor.make cls v mu' noise])
    (hmu : data.initialPoses.get v = .ok mu) {k : LieType} {x : List ℝ} (hx : g.poses.head? = some (k, x)) : mu = k.ops.value x := by
  obtain ⟨vars, -, -, hkeys, -, hget, -⟩ := script_parts (huber := none) (fun _ h => by cases h) hg h
  obtain ⟨vars', hnd, hty, hpo, fs', anchor, v₀, k', mu₀, hfs, -, hv₀, hp₀, han⟩ := h
  have hlen : vars'.length = g.poses.length := by simpa using congrArg List.length hty
  have hk' : data.initialPoses.keys = vars' := by
    unfold PyDict.keys
    rw [hpo, List.map_fst_zip (by simp [hlen])]
  obtain rfl : vars' = vars := hk'.symm.trans hkeys
  have ha : anchor = PriorFactor.make cls v mu' noise := by
    have := hfs.symm.trans hf
    exact (List.append_inj' this rfl).2 |> List.singleton_inj.1
  have hv : v₀ = v := by
    have := han.vars
    rw [ha] at this
    exact (List.singleton_inj.1 this).symm
  subst hv
  have := hget 0 v₀ k x (by rw [← List.head?_eq_getElem?]; exact hv₀) (by rw [← List.head?_eq_getElem?]; exact hx)
  unfold PyDict.get at hmu
  rw [this] at hmu
  exact (Except.ok.inj hmu).symm

end Jaxfg
