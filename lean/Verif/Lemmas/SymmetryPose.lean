/- Moving the world is a symmetry of pose graphs, and sizes of the solutions of linear solvers. -/
import Verif.Lemmas.Symmetry
import Verif.Props.CgSolve
import Verif.Props.Geometry
import Verif.Lemmas.LieRetract

namespace Jaxfg
open Spec Props

section
variable (F : Nat → FactorClass) (C : Ty → VarClass ℝ) (K : Ty → LieType)

/-- What it means for a factor to be moved, without indices. -/
theorem movedFactor_iff {m : LieType → List ℝ} {f f' : Factor} : MovedFactor F K m f f' ↔
    (∃ cls v mu noise, F cls = priorFactorClass (K v.ty).ops ∧ (K v.ty).Valid mu ∧
      f = ⟨cls, [v], noise, ((K v.ty).ops.value mu).leaves⟩ ∧
      f' = ⟨cls, [v], noise, ((K v.ty).ops.value ((K v.ty).ops.multiply (m (K v.ty)) mu)).leaves⟩) ∨
    ∃ cls a b M noise, F cls = betweenFactorClass (K a.ty).ops ∧ (K a.ty).Valid M ∧ a.ty = b.ty ∧
      f = ⟨cls, [a, b], noise, ((K a.ty).ops.value M).leaves⟩ ∧ f' = f := by
  constructor
  · intro h
    cases h with
    | prior cls v mu noise hF hmu => exact .inl ⟨cls, v, mu, noise, hF, hmu, rfl, rfl⟩
    | between cls a b M noise f hF hM hf =>
      obtain ⟨h1, -, h2⟩ := between_make_ok hf
      exact .inr ⟨cls, a, b, M, noise, hF, hM, h1, h2, rfl⟩
  · rintro (⟨cls, v, mu, noise, hF, hmu, rfl, rfl⟩ | ⟨cls, a, b, M, noise, hF, hM, hab, rfl, rfl⟩)
    · exact .prior cls v mu noise hF hmu
    · refine .between cls a b M noise _ hF hM ?_
      unfold BetweenFactor.make
      simp [hab, pyAssert, LieGroup.value]

theorem value_leaves_injective {G : LieGroup} {x y : List ℝ} (h : (G.value x).leaves = (G.value y).leaves) : x = y := by
  simpa [LieGroup.value] using h

theorem movedFactor_functional {m : LieType → List ℝ} {f f1 f2 : Factor} (h1 : MovedFactor F K m f f1) (h2 : MovedFactor F K m f f2) :
    f1 = f2 := by
  rw [movedFactor_iff] at h1 h2
  rcases h1 with ⟨cls, v, mu, noise, hF, hmu, rfl, rfl⟩ | ⟨cls, a, b, M, noise, hF, hM, hab, rfl, rfl⟩
  · rcases h2 with ⟨cls', v', mu', noise', hF', hmu', h, rfl⟩ | ⟨cls', a', b', M', noise', hF', hM', hab', h, rfl⟩
    · simp only [Factor.mk.injEq, List.cons.injEq, and_true] at h
      obtain ⟨rfl, rfl, rfl, h⟩ := h
      rw [value_leaves_injective h]
    · simp at h
  · rcases h2 with ⟨cls', v', mu', noise', hF', hmu', h, rfl⟩ | ⟨cls', a', b', M', noise', hF', hM', hab', h, rfl⟩
    · simp at h
    · rfl

open Classical in
/-- The moved factor, as a function. -/
noncomputable def movedFactor (m : LieType → List ℝ) (f : Factor) : Factor :=
  if h : ∃ f', MovedFactor F K m f f' then h.choose else f

theorem movedFactor_eq {m : LieType → List ℝ} {f f' : Factor} (h : MovedFactor F K m f f') : movedFactor F K m f = f' := by
  unfold movedFactor
  have hex : ∃ f', MovedFactor F K m f f' := ⟨f', h⟩
  rw [dif_pos hex]
  exact movedFactor_functional F K hex.choose_spec h

/-- Moving the world is a symmetry of pose graphs. -/
theorem moved_isSymmetry (hK : ∀ t, C t = (K t).ops.varClass) {m : LieType → List ℝ} (hm : ∀ k : LieType, k.Valid (m k))
    {fs : List Factor} (h : ∀ f ∈ fs, ∃ f', MovedFactor F K m f f') :
    IsSymmetry F C fs (movedFactor F K m) (fun v x => (K v.ty).ops.value ((K v.ty).ops.multiply (m (K v.ty)) x.flatten))
      (fun v x => ∃ p, (K v.ty).Valid p ∧ x = (K v.ty).ops.value p) := by
  have key : ∀ f ∈ fs, MovedFactor F K m f (movedFactor F K m f) := by
    intro f hf
    obtain ⟨f', hf'⟩ := h f hf
    rw [movedFactor_eq F K hf']; exact hf'
  have rel := fun f hf => (movedFactor_iff F K).1 (key f hf)
  constructor
  case cls =>
    intro f hf
    rcases rel f hf with ⟨_, _, _, _, _, _, h1, h2⟩ | ⟨_, _, _, _, _, _, _, _, h1, h2⟩
    · rw [h2, h1]
    · rw [h2]
  case vars =>
    intro f hf
    rcases rel f hf with ⟨_, _, _, _, _, _, h1, h2⟩ | ⟨_, _, _, _, _, _, _, _, h1, h2⟩
    · rw [h2, h1]
    · rw [h2]
  case noise =>
    intro f hf
    rcases rel f hf with ⟨_, _, _, _, _, _, h1, h2⟩ | ⟨_, _, _, _, _, _, _, _, h1, h2⟩
    · rw [h2, h1]
    · rw [h2]
  case shapes =>
    intro f hf
    rcases rel f hf with ⟨_, _, _, _, _, _, h1, h2⟩ | ⟨_, _, _, _, _, _, _, _, h1, h2⟩
    · rw [h2, h1]; rfl
    · rw [h2]
  case value =>
    rintro v x - ⟨p, hp, rfl⟩
    rw [hK]
    refine (isValueOf_lie _).2 ⟨_, rfl, (lieLaws _).len _ ?_⟩
    rw [value_flatten]
    exact (lieLaws _).mul _ _ (hm _) hp
  case residual =>
    intro f hf val hval _
    rcases rel f hf with ⟨cls, v, mu, noise, hF, hmu, h1, h2⟩ | ⟨cls, a, b, M, noise, hF, hM, hab, h1, h2⟩
    · obtain ⟨-, p, hp, hpv⟩ := hval v (by rw [h1]; simp)
      rw [h2, h1]
      simp only [Factor.self, List.map_cons, List.map_nil, hF, hpv]
      show (K v.ty).ops.rminus ((K v.ty).ops.value _).flatten _ = (K v.ty).ops.rminus ((K v.ty).ops.value _).flatten _
      simp only [value_flatten]
      unfold LieGroup.rminus
      exact congrArg _ ((lieLaws _).relative_invariant (hm _) hp hmu)
    · obtain ⟨-, p, hp, hpv⟩ := hval a (by rw [h1]; simp)
      obtain ⟨-, p', hp', hpv'⟩ := hval b (by rw [h1]; simp)
      rw [h2, h1]
      simp only [List.map_cons, List.map_nil, hpv, hpv', value_flatten]
      rw [← hab] at hp' ⊢
      exact (C55_factor_invariant F (K a.ty) cls hF _ (m (K a.ty)) p p' (hm _) hp hp').1
  case jacobians =>
    intro f hf val hval
    rcases rel f hf with ⟨cls, v, mu, noise, hF, hmu, h1, h2⟩ | ⟨cls, a, b, M, noise, hF, hM, hab, h1, h2⟩
    · rw [h1, hF]; rfl
    · obtain ⟨-, p, hp, hpv⟩ := hval a (by rw [h1]; simp)
      obtain ⟨-, p', hp', hpv'⟩ := hval b (by rw [h1]; simp)
      rw [h2, h1]
      simp only [List.map_cons, List.map_nil, hpv, hpv', value_flatten]
      rw [← hab] at hp' ⊢
      exact (C55_factor_invariant F (K a.ty) cls hF _ (m (K a.ty)) p p' (hm _) hp hp').2
  case retract =>
    rintro v x d - ⟨p, hp, rfl⟩ hd
    have L := lieLaws (K v.ty)
    rw [hK]
    have e : ∀ y, (K v.ty).ops.varClass.retract ((K v.ty).ops.value y) d = (K v.ty).ops.value ((K v.ty).ops.rplus y d) := by
      intro y
      show (K v.ty).ops.value ((K v.ty).ops.rplus ((K v.ty).ops.value y).flatten d) = _
      rw [value_flatten]
    simp only [e, value_flatten]
    exact ⟨⟨_, L.mul _ _ hp (L.exp d), rfl⟩, by rw [LieGroup.rplus, LieGroup.rplus, L.mul_assoc _ _ _ (hm _) hp (L.exp d)]⟩

/-- A list of moved factors is the image of the list of factors. -/
theorem movedFactors_map {m : LieType → List ℝ} {fs fs' : List Factor} (h : List.Forall₂ (MovedFactor F K m) fs fs') :
    fs' = fs.map (movedFactor F K m) ∧ ∀ f ∈ fs, ∃ f', MovedFactor F K m f f' := by
  induction h with
  | nil => simp
  | cons h1 _ ih =>
    refine ⟨by rw [List.map_cons, movedFactor_eq F K h1, ← ih.1], fun f hf => ?_⟩
    rcases List.mem_cons.1 hf with rfl | hf
    · exact ⟨_, h1⟩
    · exact ih.2 f hf

theorem movedFactors_wf (hK : ∀ t, C t = (K t).ops.varClass) {m : LieType → List ℝ} (hm : ∀ k : LieType, k.Valid (m k))
    {fs : List Factor} (h : ∀ f ∈ fs, ∃ f', MovedFactor F K m f f')
    (hnoise : ∀ f ∈ fs, ∀ v ∈ f.vars, NoiseWF f.noise (K v.ty).ops.tangentDim (K v.ty).ops.tangentDim) :
    (∀ f ∈ fs, FactorWF F C f) ∧ ∀ f ∈ fs, FactorWF F C (movedFactor F K m f) := by
  have both : ∀ f ∈ fs, FactorWF F C f ∧ FactorWF F C (movedFactor F K m f) := by
    intro f hf
    obtain ⟨f', hf'⟩ := h f hf
    rw [movedFactor_eq F K hf']
    have hn := hnoise f hf
    cases hf' with
    | prior cls v mu noise hF hmu =>
      exact ⟨(C54_wellformed F C K _ _ (.prior cls v mu noise hF hmu) fun u hu => ⟨hK _, hn u hu⟩).1,
        (C54_wellformed F C K _ _ (.prior cls v _ noise hF ((lieLaws _).mul _ _ (hm _) hmu)) fun u hu => ⟨hK _, hn u hu⟩).1⟩
    | between cls a b M noise f hF hM hf =>
      have := (C54_wellformed F C K _ _ (.between cls a b M noise _ hF hM hf) fun u hu => ⟨hK _, hn u hu⟩).1
      exact ⟨this, this⟩
  exact ⟨fun f hf => (both f hf).1, fun f hf => (both f hf).2⟩

theorem lie_paramDim_pos (k : LieType) : 0 < k.ops.varClass.paramDim := by
  cases k <;> decide

end

theorem Spec.SolvesAlike.imp {solve solve' : Nat → Assign Ext → Py (Option (Assign Ext × List (Msg Ext)))} {a a' : Assign ℝ}
    {O O' : Assign ℝ → Assign ℝ → Prop} (h : SolvesAlike solve solve' a a' O) (hO : ∀ {o o'}, O o o' → O' o o') :
    SolvesAlike solve solve' a a' O' := by
  intro fuel out log hs
  obtain ⟨o, o', h1, h2, h3⟩ := h fuel out log hs
  exact ⟨o, o', h1, h2, hO h3⟩

/-! ### Sizes of solutions -/

theorem cholmod_sized (stale : Pattern → ScipyCoo ℝ → ℝ → List ℝ → Py (List ℝ)) (addr : Nat) :
    SizedSolutions (fun A b l _ => (cholmodSolve stale .empty addr A b l).1) := by
  intro A b l i x hA hb h
  have h : (cholmodSolve stale .empty addr A b l).1 = .ok x := h
  unfold cholmodSolve at h
  cases hS : A.T.asScipy with
  | error e => rw [hS] at h; cases h
  | ok S =>
    rw [hS] at h
    have ha : (cholmodAnalysis .empty addr S).1 = S.pattern := rfl
    simp only [ha, cholmodFactorSolve, if_true] at h
    have hsh : S.shape = A.T.shape := by
      rw [asScipy_ok (cooWF_T hA)] at hS
      cases hS; rfl
    split at h
    · cases h
    · split at h
      · cases Except.ok.inj h
        rw [List.length_ofFn, hsh]; rfl
      · cases h

theorem cg_sized (tol : Nat → ℝ) : SizedSolutions (fun A b l i => cgSolve A b l (tol i)) := by
  intro A b l i x hA hb h
  have h : cgSolve A b l (tol i) = .ok x := h
  unfold cgSolve cg at h
  simp only [List.length_replicate, hb] at h
  have ops := opsMatch hA l
  obtain ⟨y, h1, h2, -⟩ := ops.op (List.replicate A.shape.2 0) (by simp)
  rw [h1] at h
  simp only [py_bind_ok] at h
  have hlr : (List.zipWith (· - ·) b y).length = A.shape.2 := by simp [hb, h2]
  obtain ⟨s, k, h3, h4, -⟩ := cgLoop_ok ops (max (tol i ^ 2 * vdot b b) 0)
    ⟨Spec.vec (List.replicate A.shape.2 0) _, Spec.vec (List.zipWith (· - ·) b y) _, vdot (List.zipWith (· - ·) b y)
      (jacobiPreconditioner (ataDiagonals A A.shape.2) (List.zipWith (· - ·) b y)),
      Spec.vec (jacobiPreconditioner (ataDiagonals A A.shape.2) (List.zipWith (· - ·) b y)) _⟩ A.shape.2 0
    (s := ⟨List.replicate A.shape.2 0, List.zipWith (· - ·) b y, vdot (List.zipWith (· - ·) b y)
      (jacobiPreconditioner (ataDiagonals A A.shape.2) (List.zipWith (· - ·) b y)),
      jacobiPreconditioner (ataDiagonals A A.shape.2) (List.zipWith (· - ·) b y)⟩)
    ⟨by simp, hlr, (ops.pre _ hlr).1, rfl, rfl, rfl, rfl⟩
  rw [h3] at h
  cases h
  exact h4.lx

end Jaxfg
