/- Pose factors: residuals, derivatives, invariance. -/
import Verif.Lemmas.LieMotion
import Mathlib.Tactic.Group
import Mathlib.Algebra.Group.MinimalAxioms

namespace Jaxfg
open Spec Filter Topology LieGroup
open Matrix hiding vec

/-- The parameter vectors of a group form a group. -/
abbrev LieLaws.group {G : LieGroup} {V : List ℝ → Prop} (L : LieLaws G V) : Group {x // V x} :=
  letI : Mul {x // V x} := ⟨fun a b => ⟨G.multiply a.1 b.1, L.mul _ _ a.2 b.2⟩⟩
  letI : Inv {x // V x} := ⟨fun a => ⟨G.inverse a.1, L.inv _ a.2⟩⟩
  letI : One {x // V x} := ⟨⟨G.identity, L.one⟩⟩
  Group.ofLeftAxioms (fun a b c => Subtype.ext (L.mul_assoc _ _ _ a.2 b.2 c.2)) (fun a => Subtype.ext (L.one_mul _ a.2))
    (fun a => Subtype.ext (L.inv_mul _ a.2))

section
variable {G : LieGroup} {V : List ℝ → Prop} (L : LieLaws G V)
include L

/-- The relative pose does not change if both poses are moved by the same motion. -/
theorem LieLaws.relative_invariant {g a b : List ℝ} (hg : V g) (ha : V a) (hb : V b) :
    G.multiply (G.inverse (G.multiply g a)) (G.multiply g b) = G.multiply (G.inverse a) b := by
  let _ := L.group
  have h : ∀ g a b : {x // V x}, (g * a)⁻¹ * (g * b) = a⁻¹ * b := by intro g a b; group
  exact congrArg Subtype.val (h ⟨g, hg⟩ ⟨a, ha⟩ ⟨b, hb⟩)

theorem LieLaws.prior_moved {T mu d : List ℝ} (hT : V T) (hmu : V mu) (hd : d.length = G.tangentDim) (t : ℝ) :
    G.rminus (G.rplus T (scale t d)) mu =
      G.log (G.multiply (G.multiply (G.exp (scale t (scale (-1) d))) (G.exp (scale t (List.replicate G.tangentDim 0))))
        (G.multiply (G.inverse T) mu)) := by
  have h0 : scale t (List.replicate G.tangentDim 0) = List.replicate G.tangentDim 0 := by simp [scale]
  have h1 : scale t (scale (-1) d) = scale (-1) (scale t d) := by simp [scale]
  rw [LieGroup.rminus, LieGroup.rplus, h0, L.exp_zero, h1, ← L.exp_neg _ (by simpa [scale] using hd)]
  let _ := L.group
  have h : ∀ T E mu : {x // V x}, (T * E)⁻¹ * mu = (E⁻¹ * 1) * (T⁻¹ * mu) := by intro T E mu; group
  exact congrArg (fun x => G.log x.1) (h ⟨T, hT⟩ ⟨G.exp (scale t d), L.exp _⟩ ⟨mu, hmu⟩)

omit L in
theorem Ad_scale (x d : List ℝ) (t : ℝ) (hd : d.length = G.tangentDim) : G.Ad x (scale t d) = scale t (G.Ad x d) := by
  have : vec (scale t d) G.tangentDim = t • vec d G.tangentDim := by
    funext i
    simp only [Spec.vec, scale, List.getD_eq_getElem?_getD, Pi.smul_apply, smul_eq_mul]
    rw [List.getElem?_map, List.getElem?_eq_getElem (by rw [hd]; exact i.2)]
    rfl
  rw [LieGroup.Ad, this, Matrix.mulVec_smul, LieGroup.Ad, scale, List.map_ofFn]
  rfl

theorem LieLaws.between_moved {a b M da db : List ℝ} (ha : V a) (hb : V b) (hM : V M) (hda : da.length = G.tangentDim)
    (hdb : db.length = G.tangentDim) (t : ℝ) :
    G.rminus (G.multiply (G.inverse (G.rplus a (scale t da))) (G.rplus b (scale t db))) M =
      G.log (G.multiply (G.multiply (G.exp (scale t (scale (-1) db)))
          (G.exp (scale t (G.Ad (G.inverse (G.multiply (G.inverse a) b)) da))))
        (G.multiply (G.inverse (G.multiply (G.inverse a) b)) M)) := by
  have h1 : scale t (scale (-1) db) = scale (-1) (scale t db) := by simp [scale]
  have hX : V (G.inverse (G.multiply (G.inverse a) b)) := L.inv _ (L.mul _ _ (L.inv _ ha) hb)
  rw [LieGroup.rminus, LieGroup.rplus, LieGroup.rplus, h1, ← L.exp_neg _ (by simpa [scale] using hdb), ← Ad_scale _ _ _ hda,
    ← L.conj _ _ hX (by simpa [scale] using hda)]
  let _ := L.group
  have h : ∀ a b E F M : {x // V x}, ((a * E)⁻¹ * (b * F))⁻¹ * M =
      (F⁻¹ * ((a⁻¹ * b)⁻¹ * E * ((a⁻¹ * b)⁻¹)⁻¹)) * ((a⁻¹ * b)⁻¹ * M) := by intro a b E F M; group
  exact congrArg (fun x => G.log x.1)
    (h ⟨a, ha⟩ ⟨b, hb⟩ ⟨G.exp (scale t da), L.exp _⟩ ⟨G.exp (scale t db), L.exp _⟩ ⟨M, hM⟩)

end

theorem arrMat_negEye (n : Nat) : arrMat (negEye n) n n = -1 := by
  have : negEye n = .of2 n n fun i j => -(if i = j then 1 else 0) := rfl
  rw [this, arrMat_of2]
  funext i j
  simp [Matrix.one_apply, Fin.ext_iff]

theorem vec_scale_neg {d : List ℝ} {n : Nat} (hd : d.length = n) : vec (scale (-1) d) n = -vec d n := by
  funext i
  simp only [Spec.vec, scale, List.getD_eq_getElem?_getD, Pi.neg_apply]
  rw [List.getElem?_map, List.getElem?_eq_getElem (by rw [hd]; exact i.2)]
  simp

theorem vec_replicate_zero (n : Nat) : vec (List.replicate n (0:ℝ)) n = 0 := by
  funext i
  simp [Spec.vec]

theorem vec_ofFn' {n : Nat} (f : Fin n → ℝ) : vec (List.ofFn f) n = f := by
  funext i
  simp [Spec.vec]

/-! ### Whitening -/

theorem sqNorm_eq_zero {l : List ℝ} : sqNorm l = 0 ↔ l = List.replicate l.length 0 := by
  induction l with
  | nil => simp [sqNorm]
  | cons x l ih =>
    have h1 : 0 ≤ sqNorm l := List.sum_nonneg (by simp only [List.mem_map]; rintro _ ⟨y, _, rfl⟩; positivity)
    have e : sqNorm (x :: l) = x ^ 2 + sqNorm l := by simp [sqNorm]
    rw [e, List.length_cons, List.replicate_succ, List.cons.injEq, ← ih]
    constructor
    · intro h
      have h2 := sq_nonneg x
      exact ⟨by nlinarith, by linarith⟩
    · rintro ⟨rfl, h⟩; simp [h]

theorem sum_eq_zero_iff_nonneg {β : Type _} {l : List β} {g : β → ℝ} (h : ∀ x ∈ l, 0 ≤ g x) :
    (l.map g).sum = 0 ↔ ∀ x ∈ l, g x = 0 := by
  induction l with
  | nil => simp
  | cons x l ih =>
    have h0 := h x (by simp)
    have h1 : 0 ≤ (l.map g).sum := List.sum_nonneg (by
      simp only [List.mem_map]
      rintro _ ⟨y, hy, rfl⟩
      exact h y (by simp [hy]))
    have ih := ih fun y hy => h y (by simp [hy])
    simp only [List.map_cons, List.sum_cons, List.forall_mem_cons, ← ih]
    constructor
    · intro hs; exact ⟨by linarith, by linarith⟩
    · rintro ⟨a, b⟩; linarith

theorem vec_eq_zero_iff {l : List ℝ} {n : Nat} (h : l.length = n) : vec l n = 0 ↔ l = List.replicate n 0 := by
  constructor
  · intro h0
    apply List.ext_getElem (by simpa using h)
    intro i h1 h2
    have := congrFun h0 ⟨i, h ▸ h1⟩
    rw [vec_eq h] at this
    simpa using this
  · rintro rfl; exact vec_replicate_zero n

/-- Whitening with a regular noise model maps only zero to zero. -/
theorem whiten_eq_zero {N : Noise} {n : Nat} (hN : NoiseWF N n n) (hR : NoiseRegular N n) {r w : List ℝ} (hr : r.length = n)
    (hw : N.whiten r = .ok w) : sqNorm w = 0 ↔ r = List.replicate n 0 := by
  have gauss : ∀ N : Noise, NoiseWF N n n → NoiseGaussian N → (noiseMat N n n).det ≠ 0 → ∀ w, N.whiten r = .ok w →
      (sqNorm w = 0 ↔ r = List.replicate n 0) := by
    intro N hN hg hdet w hw
    obtain ⟨w', h1, h2, h3⟩ := whiten_gaussian hN hg hr
    obtain rfl : w = w' := by rw [hw] at h1; exact Except.ok.inj h1
    rw [sqNorm_eq_zero, h2, ← vec_eq_zero_iff h2, h3, ← vec_eq_zero_iff hr]
    constructor
    · intro h0
      exact Matrix.eq_zero_of_mulVec_eq_zero hdet h0
    · intro h0; rw [h0, Matrix.mulVec_zero]
  induction N generalizing w with
  | gaussian W => exact gauss _ hN trivial hR w hw
  | diagonal d =>
    refine gauss _ hN trivial ?_ w hw
    have : noiseMat (.diagonal d) n n = Matrix.diagonal (vec d.data n) := by
      funext i j
      simp only [noiseMat, Matrix.diagonal_apply, Spec.vec, Fin.ext_iff]
    rw [this, Matrix.det_diagonal, Finset.prod_ne_zero_iff]
    intro i _
    rw [vec_eq hN.1.2]
    exact hR _ (List.getElem_mem _)
  | huber w' δ ih =>
    obtain ⟨hw', d, rfl, hd⟩ := hN
    obtain ⟨u, hu, hl⟩ := whiten_ok hw' hr
    have h1 := huber_whiten (d := d) hu
    obtain rfl : w = u.map (· * huberWeight d (norm2 u)) := by rw [hw] at h1; exact Except.ok.inj h1
    refine Iff.trans ?_ (ih hw' hR hu)
    rw [sqNorm_eq_zero, sqNorm_eq_zero]
    have hp := huberWeight_pos (n := norm2 u) hd
    rw [List.length_map, List.eq_replicate_iff, List.eq_replicate_iff]
    simp only [List.length_map, true_and, List.mem_map, forall_exists_index, and_imp, forall_apply_eq_imp_iff₂]
    constructor
    · intro h x hx
      exact (mul_eq_zero.1 (h x hx)).resolve_right hp.ne'
    · intro h x hx; rw [h x hx, zero_mul]

/-! ### Well-formed pose factors -/

variable {F : Nat → FactorClass} {C : Ty → VarClass ℝ} {K : Ty → LieType}

theorem between_make_ok {cls : Nat} {g : Ty → Nat} {a b : Var} {M : Value ℝ} {noise : Noise} {f : Factor}
    (h : BetweenFactor.make cls g a b M noise = .ok f) : a.ty = b.ty ∧ g a.ty = M.treedef ∧ f = ⟨cls, [a, b], noise, M.leaves⟩ := by
  unfold BetweenFactor.make at h
  by_cases h1 : a.ty = b.ty
  · by_cases h2 : g a.ty = M.treedef
    · simp only [h1, decide_true, pyAssert_true, py_bind_ok, py_pure] at h
      rw [show g b.ty = M.treedef from h1 ▸ h2] at h
      simp only [decide_true, pyAssert_true, py_bind_ok, Except.ok.injEq] at h
      exact ⟨h1, h2, h.symm⟩
    · exfalso
      rw [h1] at h2
      simp [h1, h2] at h
  · exfalso
    simp [h1] at h

theorem jacobiansCorrect_iff_dim {f : Factor} {vals : List (Value ℝ)} {n : Nat} (hn : rdim f = n) :
    JacobiansCorrect F C f vals ↔
    ∀ δs : List (List ℝ), List.Forall₂ (fun v d => d.length = (C v.ty).localDim) f.vars δs →
      HasDerivAt (fun t : ℝ => vec ((F f.cls).residual f.self (movedValues C f.vars vals δs t)) n)
        (((f.vars.zip (((F f.cls).jacobians f.self vals).zip δs)).map fun p =>
          arrMat p.2.1 n (C p.1.ty).localDim *ᵥ vec p.2.2 (C p.1.ty).localDim).sum) 0 := by
  subst hn
  exact Iff.rfl

/-- What it means that the Jacobian of a prior factor is correct. -/
theorem prior_correct_iff {k : LieType} {cls : Nat} {v : Var} {mu T : List ℝ} {noise : Noise}
    (hF : F cls = priorFactorClass k.ops) (hv : C v.ty = k.ops.varClass)
    (hr : rdim (PriorFactor.make cls v (k.ops.value mu) noise) = k.ops.tangentDim) :
    JacobiansCorrect F C (PriorFactor.make cls v (k.ops.value mu) noise) [k.ops.value T] ↔
      ∀ d : List ℝ, d.length = k.ops.tangentDim →
        HasDerivAt (fun t => vec (k.ops.rminus (k.ops.rplus T (scale t d)) mu) k.ops.tangentDim) (-vec d k.ops.tangentDim) 0 := by
  rw [jacobiansCorrect_iff_dim hr]
  have e1 : ∀ d t, (F cls).residual (PriorFactor.make cls v (k.ops.value mu) noise).self
      (movedValues C [v] [k.ops.value T] [d] t) = k.ops.rminus (k.ops.rplus T (scale t d)) mu := by
    intro d t
    show (F cls).residual _ [(C v.ty).retract (k.ops.value T) (scale t d)] = _
    rw [hF, hv]
    show k.ops.rminus (k.ops.value (k.ops.rplus (k.ops.value T).flatten (scale t d))).flatten mu = _
    rw [value_flatten, value_flatten]
  have e2 : ∀ d, (([v].zip (((F cls).jacobians (PriorFactor.make cls v (k.ops.value mu) noise).self [k.ops.value T]).zip [d])).map
      fun p => arrMat p.2.1 k.ops.tangentDim (C p.1.ty).localDim *ᵥ vec p.2.2 (C p.1.ty).localDim).sum =
      -vec d k.ops.tangentDim := by
    intro d
    rw [hF]
    show (([v].zip ([negEye k.ops.tangentDim].zip [d])).map _).sum = _
    simp only [List.zip_cons_cons, List.zip_nil_right, List.map_cons, List.map_nil, List.sum_cons, List.sum_nil, add_zero]
    rw [hv]
    show arrMat (negEye k.ops.tangentDim) k.ops.tangentDim k.ops.tangentDim *ᵥ vec d k.ops.tangentDim = _
    rw [arrMat_negEye, neg_mulVec, one_mulVec]
  have hl : (C v.ty).localDim = k.ops.tangentDim := by rw [hv]; rfl
  constructor
  · intro h d hd
    have := h [d] (List.Forall₂.cons (hd.trans hl.symm) List.Forall₂.nil)
    refine (this.congr_of_eventuallyEq (Eventually.of_forall fun t => ?_)).congr_deriv (e2 d)
    exact congrArg (fun l => vec l _) (e1 d t).symm
  · intro h δs hδ
    change List.Forall₂ _ [v] δs at hδ
    rw [List.forall₂_cons_left_iff] at hδ
    obtain ⟨d, l, hd, hnil, rfl⟩ := hδ
    rw [List.forall₂_nil_left_iff] at hnil
    subst hnil
    refine ((h d (hd.trans hl)).congr_of_eventuallyEq (Eventually.of_forall fun t => ?_)).congr_deriv (e2 d).symm
    exact congrArg (fun l => vec l _) (e1 d t)

/-- What it means that the Jacobians of a between factor are correct. -/
theorem between_correct_iff {k : LieType} {cls : Nat} {a b : Var} {M Ta Tb : List ℝ} {noise : Noise}
    (hF : F cls = betweenFactorClass k.ops) (ha : C a.ty = k.ops.varClass) (hb : C b.ty = k.ops.varClass)
    (hr : rdim ⟨cls, [a, b], noise, (k.ops.value M).leaves⟩ = k.ops.tangentDim) :
    JacobiansCorrect F C ⟨cls, [a, b], noise, (k.ops.value M).leaves⟩ [k.ops.value Ta, k.ops.value Tb] ↔
      ∀ da db : List ℝ, da.length = k.ops.tangentDim → db.length = k.ops.tangentDim →
        HasDerivAt (fun t => vec (k.ops.rminus (k.ops.multiply (k.ops.inverse (k.ops.rplus Ta (scale t da)))
            (k.ops.rplus Tb (scale t db))) M) k.ops.tangentDim)
          (-vec db k.ops.tangentDim +
            vec (k.ops.Ad (k.ops.inverse (k.ops.multiply (k.ops.inverse Ta) Tb)) da) k.ops.tangentDim) 0 := by
  rw [jacobiansCorrect_iff_dim hr]
  have e1 : ∀ da db t, (F cls).residual (Factor.self ⟨cls, [a, b], noise, (k.ops.value M).leaves⟩)
      (movedValues C [a, b] [k.ops.value Ta, k.ops.value Tb] [da, db] t) =
      k.ops.rminus (k.ops.multiply (k.ops.inverse (k.ops.rplus Ta (scale t da))) (k.ops.rplus Tb (scale t db))) M := by
    intro da db t
    show (F cls).residual _ [(C a.ty).retract (k.ops.value Ta) (scale t da), (C b.ty).retract (k.ops.value Tb) (scale t db)] = _
    rw [hF, ha, hb]
    show k.ops.rminus (k.ops.multiply
        (k.ops.inverse (k.ops.value (k.ops.rplus (k.ops.value Ta).flatten (scale t da))).flatten)
        (k.ops.value (k.ops.rplus (k.ops.value Tb).flatten (scale t db))).flatten) M = _
    rw [value_flatten, value_flatten, value_flatten, value_flatten]
  have e2 : ∀ da db, (([a, b].zip (((F cls).jacobians (Factor.self ⟨cls, [a, b], noise, (k.ops.value M).leaves⟩)
      [k.ops.value Ta, k.ops.value Tb]).zip [da, db])).map
      fun p => arrMat p.2.1 k.ops.tangentDim (C p.1.ty).localDim *ᵥ vec p.2.2 (C p.1.ty).localDim).sum =
      -vec db k.ops.tangentDim + vec (k.ops.Ad (k.ops.inverse (k.ops.multiply (k.ops.inverse Ta) Tb)) da) k.ops.tangentDim := by
    intro da db
    rw [hF]
    show (([a, b].zip ([k.ops.adjoint (k.ops.inverse (k.ops.multiply (k.ops.inverse (k.ops.value Ta).flatten)
      (k.ops.value Tb).flatten)), negEye k.ops.tangentDim].zip [da, db])).map _).sum = _
    simp only [List.zip_cons_cons, List.zip_nil_right, List.map_cons, List.map_nil, List.sum_cons, List.sum_nil, add_zero]
    rw [ha, hb, value_flatten, value_flatten]
    show arrMat _ k.ops.tangentDim k.ops.tangentDim *ᵥ vec da k.ops.tangentDim +
      arrMat (negEye k.ops.tangentDim) k.ops.tangentDim k.ops.tangentDim *ᵥ vec db k.ops.tangentDim = _
    rw [arrMat_negEye, neg_mulVec, one_mulVec, LieGroup.Ad, vec_ofFn', add_comm]
  have hla : (C a.ty).localDim = k.ops.tangentDim := by rw [ha]; rfl
  have hlb : (C b.ty).localDim = k.ops.tangentDim := by rw [hb]; rfl
  constructor
  · intro h da db hda hdb
    have := h [da, db] (List.Forall₂.cons (hda.trans hla.symm) (List.Forall₂.cons (hdb.trans hlb.symm) List.Forall₂.nil))
    refine (this.congr_of_eventuallyEq (Eventually.of_forall fun t => ?_)).congr_deriv (e2 da db)
    exact congrArg (fun l => vec l _) (e1 da db t).symm
  · intro h δs hδ
    change List.Forall₂ _ [a, b] δs at hδ
    rw [List.forall₂_cons_left_iff] at hδ
    obtain ⟨da, l, hda, hδ, rfl⟩ := hδ
    rw [List.forall₂_cons_left_iff] at hδ
    obtain ⟨db, l, hdb, hnil, rfl⟩ := hδ
    rw [List.forall₂_nil_left_iff] at hnil
    subst hnil
    refine ((h da db (hda.trans hla) (hdb.trans hlb)).congr_of_eventuallyEq
      (Eventually.of_forall fun t => ?_)).congr_deriv (e2 da db).symm
    exact congrArg (fun l => vec l _) (e1 da db t)

theorem lie_goodClasses (h : ∀ t, C t = (K t).ops.varClass) : GoodClasses C := by
  intro t
  rw [h]
  exact ⟨lie_wellShaped _, fun x d hx _ => lie_retract _ hx⟩

end Jaxfg
