/- The Jacobians of the example factors are the derivatives of their residuals. -/
import Verif.Lemmas.ExampleGraph
import Verif.Spec.Linearize
import Mathlib.Analysis.Calculus.Deriv.Add
import Mathlib.Analysis.Calculus.Deriv.Mul
import Mathlib.Analysis.Calculus.Deriv.Prod

namespace Jaxfg.Ex
open Spec
open Matrix hiding vec

/-- Entries of a retracted value. -/
theorem retract_entry {t : Ty} {x : Value ℝ} {d : List ℝ} (hx : IsValueOf (C t) x) (hd : d.length = t + 1) {i : Nat} (hi : i < t + 1) :
    ((C t).retract x d).flatten.length = t + 1 ∧ ((C t).retract x d).flatten.getD i 0 = x.flatten.getD i 0 + d.getD i 0 := by
  have h1 := value_length hx
  have hl : (List.zipWith (· + ·) x.flatten d).length = (C t).paramDim := by
    rw [List.length_zipWith, hd, h1, paramDim, min_self]
  have : ((C t).retract x d).flatten = List.zipWith (· + ·) x.flatten d := flatten_unravel (c := C t) (wellShaped t) hl
  rw [this]
  refine ⟨by rw [hl, paramDim], ?_⟩
  rw [getD_lt _ (by rw [hl, paramDim]; exact hi), getD_lt _ (by rw [h1]; exact hi), getD_lt _ (by rw [hd]; exact hi)]
  simp

theorem eye_mulVec {c : ℝ} {n : Nat} {k : Nat} (hk : k = n) {d : List ℝ} (i : Fin n) :
    (arrMat (eye c n) n k *ᵥ vec d k) i = c * d.getD i 0 := by
  subst hk
  unfold eye
  rw [arrMat_of2]
  simp only [mulVec, dotProduct]
  rw [Finset.sum_eq_single i]
  · simp [vec]
  · intro j _ hj
    rw [if_neg (fun h => hj (Fin.ext h.symm)), zero_mul]
  · simp

theorem getD_smul {d : List ℝ} {t : ℝ} {i : Nat} (hi : i < d.length) : (d.map (t * ·)).getD i 0 = t * d.getD i 0 := by
  rw [getD_lt _ (by simpa using hi), getD_lt _ hi, List.getElem_map]

theorem hasDerivAt_line (a c : ℝ) : HasDerivAt (fun t : ℝ => a + t * c) c 0 := by
  simpa using ((hasDerivAt_id (0 : ℝ)).mul_const c).const_add a

/-- The Jacobian of a prior is correct. -/
theorem prior_correct (v : Var) (N : Noise) (p : List ℝ) (hN : NoiseWF N (v.ty + 1) (v.ty + 1)) {x : Value ℝ}
    (hx : IsValueOf (C v.ty) x) : JacobiansCorrect F C ⟨0, [v], N, [⟨[v.ty + 1], p⟩]⟩ [x] := by
  have hd : rdim ⟨0, [v], N, [⟨[v.ty + 1], p⟩]⟩ = v.ty + 1 := noiseDim_eq hN
  intro δs hδ
  cases hδ with
  | @cons _ d _ _ h1 h2 =>
    cases h2
    rw [hasDerivAt_pi]
    generalize rdim _ = n at hd ⊢
    subst hd
    intro i
    rw [localDim] at h1
    have hfun : ∀ t : ℝ, vec ((F 0).residual (Factor.self ⟨0, [v], N, [⟨[v.ty + 1], p⟩]⟩) (movedValues C [v] [x] [d] t)) (v.ty + 1) i =
        (x.flatten.getD i 0 - p.getD i 0) + t * d.getD i 0 := by
      intro t
      obtain ⟨e1, e2⟩ := retract_entry hx (d := d.map (t * ·)) (by simpa using h1) i.2
      unfold vec
      simp only [F, movedValues, List.zip_cons_cons, List.zip_nil_right, List.zipWith_cons_cons, List.zipWith_nil_right,
        List.getD_cons_zero, e1, Factor.self]
      rw [getD_lt _ (by rw [List.length_map, List.length_range]; exact i.2)]
      simp only [List.getElem_map, List.getElem_range, e2]
      rw [getD_smul (by rw [h1]; exact i.2)]
      ring
    simp only [hfun]
    have hval : (([v].zip (((F 0).jacobians (Factor.self ⟨0, [v], N, [⟨[v.ty + 1], p⟩]⟩) [x]).zip [d])).map fun p =>
        arrMat p.2.1 (v.ty + 1) (C p.1.ty).localDim *ᵥ vec p.2.2 (C p.1.ty).localDim).sum i = d.getD i 0 := by
      simp only [F, List.zip_cons_cons, List.zip_nil_right, List.map_cons, List.map_nil, List.sum_cons, List.sum_nil,
        List.getD_cons_zero, add_zero, value_length hx]
      rw [eye_mulVec (localDim _), one_mul]
    rw [hval]
    exact hasDerivAt_line _ _

/-- The Jacobian of a relative measurement is correct. -/
theorem between_correct (u v : Var) (huv : v.ty = u.ty) (N : Noise) (p : List ℝ) (hN : NoiseWF N (u.ty + 1) (u.ty + 1)) {x y : Value ℝ}
    (hx : IsValueOf (C u.ty) x) (hy : IsValueOf (C v.ty) y) :
    JacobiansCorrect F C ⟨1, [u, v], N, [⟨[u.ty + 1], p⟩]⟩ [x, y] := by
  have hd : rdim ⟨1, [u, v], N, [⟨[u.ty + 1], p⟩]⟩ = u.ty + 1 := noiseDim_eq hN
  intro δs hδ
  cases hδ with
  | @cons _ d _ _ h1 h2 =>
    cases h2 with
    | @cons _ e _ _ h2 h3 =>
      cases h3
      rw [hasDerivAt_pi]
      generalize rdim _ = n at hd ⊢
      subst hd
      intro i
      rw [localDim] at h1 h2
      have hfun : ∀ t : ℝ, vec ((F 1).residual (Factor.self ⟨1, [u, v], N, [⟨[u.ty + 1], p⟩]⟩)
          (movedValues C [u, v] [x, y] [d, e] t)) (u.ty + 1) i =
          (y.flatten.getD i 0 - x.flatten.getD i 0 - p.getD i 0) + t * (e.getD i 0 - d.getD i 0) := by
        intro t
        obtain ⟨e1, e2⟩ := retract_entry hx (d := d.map (t * ·)) (by simpa using h1) i.2
        obtain ⟨_, e4⟩ := retract_entry hy (d := e.map (t * ·)) (by simpa using h2) (i := i) (by rw [huv]; exact i.2)
        unfold vec
        simp only [F, movedValues, List.zip_cons_cons, List.zip_nil_right, List.zipWith_cons_cons, List.zipWith_nil_right,
          List.getD_cons_zero, List.getD_cons_succ, e1, Factor.self]
        rw [getD_lt _ (by rw [List.length_map, List.length_range]; exact i.2)]
        simp only [List.getElem_map, List.getElem_range, e2, e4]
        rw [getD_smul (d := d) (by rw [h1]; exact i.2), getD_smul (d := e) (by rw [h2, huv]; exact i.2)]
        ring
      simp only [hfun]
      have hval : (([u, v].zip (((F 1).jacobians (Factor.self ⟨1, [u, v], N, [⟨[u.ty + 1], p⟩]⟩) [x, y]).zip [d, e])).map fun p =>
          arrMat p.2.1 (u.ty + 1) (C p.1.ty).localDim *ᵥ vec p.2.2 (C p.1.ty).localDim).sum i = e.getD i 0 - d.getD i 0 := by
        simp only [F, List.zip_cons_cons, List.zip_nil_right, List.map_cons, List.map_nil, List.sum_cons, List.sum_nil,
          List.getD_cons_zero, add_zero, value_length hx, Pi.add_apply]
        rw [eye_mulVec (localDim _), eye_mulVec (by rw [localDim, huv])]
        ring
      rw [hval]
      exact hasDerivAt_line _ _

/-- All factors of the example graph have correct Jacobians. -/
theorem fs_correct : ∀ f ∈ fs, JacobiansCorrect F C f (f.vars.map val) := by
  have hv : ∀ v ∈ vars, IsValueOf (C v.ty) (val v) := fun v hv => holds.isValueOf good hv
  intro f hf
  simp only [fs, List.mem_cons, List.not_mem_nil, or_false] at hf
  rcases hf with rfl | rfl | rfl | rfl
  · exact prior_correct x f1.noise _ ⟨⟨rfl, rfl⟩, rfl⟩ (hv x (by simp [vars]))
  · exact between_correct x y rfl f2.noise _ ⟨rfl, rfl⟩ (hv x (by simp [vars])) (hv y (by simp [vars]))
  · exact prior_correct y f3.noise _ ⟨⟨rfl, rfl⟩, rfl⟩ (hv y (by simp [vars]))
  · exact prior_correct z f4.noise _ ⟨rfl, rfl⟩ (hv z (by simp [vars]))

theorem fs_gaussian : ∀ f ∈ fs, NoiseGaussian f.noise := by
  intro f hf
  simp only [fs, List.mem_cons, List.not_mem_nil, or_false] at hf
  rcases hf with rfl | rfl | rfl | rfl <;> trivial

/-- The example assignments in the order of the graph. -/
noncomputable def a' : Assign ℝ := ⟨[10, 20, 30, 40], Layout.make C (Graph.variablesOf fs) false⟩

theorem variablesOf_fs : Graph.variablesOf fs = [x, y, z] := rfl

theorem rep' : Rep C (Graph.variablesOf fs) false flat a' where
  nodup := by rw [variablesOf_fs]; decide
  layout := rfl
  len := by
    intro v hv
    rw [variablesOf_fs] at hv
    exact rep.len v (by simp [vars] at hv ⊢; tauto)
  storage := by
    rw [variablesOf_fs]
    have : grouped [x, y, z] = [x, y, z] := by decide
    rw [this]
    simp [a', flat, x, y, z]

theorem holds' : Holds C fs (Graph.variablesOf fs) val a' where
  assignment := rep'.isAssignment
  isGlobal := rep'.flag
  sameVars := (variablesOf_spec fs).2
  values v hv := by
    rw [rep'.getValue_ok hv, val_eq]
    rw [variablesOf_fs] at hv
    simp [vars] at hv ⊢; tauto

end Jaxfg.Ex
