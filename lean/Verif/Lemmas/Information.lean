/- Solving a problem whose factors carry the same information as those of another one. -/
import Verif.Lemmas.OrderSim
import Verif.Spec.Information

namespace Jaxfg
open Matrix hiding vec
open Spec

/-! ### Linear solvers -/

/-- Permuting rows and columns does not change the normal equations but for their order. -/
theorem Spec.Reordered.sameNormalEquations {m n : Nat} {ρ : Equiv.Perm (Fin m)} {σ : Equiv.Perm (Fin n)} {A A' : Coo ℝ}
    (h : Reordered ρ σ A A') : SameNormalEquations σ A A' := by
  obtain ⟨vs, rs, cs, sh⟩ := A
  obtain ⟨vs', rs', cs', sh'⟩ := A'
  have h1 : sh = (m, n) := h.shape
  have h2 : sh' = (m, n) := h.shape'
  subst h1 h2
  refine ⟨h.wf, h.wf', rfl, rfl, ?_⟩
  dsimp only
  rw [h.matrix, transpose_submatrix, submatrix_mul_equiv]

theorem Spec.SameNormalEquations.normalMatrix {n : Nat} {σ : Equiv.Perm (Fin n)} {A A' : Coo ℝ} (h : SameNormalEquations σ A A') (β : ℝ) :
    Jaxfg.normalMatrix (cooMatrix A' A'.shape.1 n) β = (Jaxfg.normalMatrix (cooMatrix A A.shape.1 n) β).submatrix σ σ := by
  unfold Jaxfg.normalMatrix
  rw [h.normal, submatrix_add]
  congr 1
  show β • 1 = β • (1 : Matrix (Fin n) (Fin n) ℝ).submatrix σ σ
  rw [submatrix_one_equiv]

theorem cholmod_normalOnly (stale : Pattern → ScipyCoo ℝ → ℝ → List ℝ → Py (List ℝ)) (addr : Nat) :
    NormalOnly fun A b l _ => (cholmodSolve stale .empty addr A b l).1 := by
  classical
  intro n σ A A' b b' x l i h hb hx
  simp only at hx ⊢
  rw [cholmodSolve_eq stale addr h.wf (m := A.shape.1) (n := n) (by rw [← h.cols]) hb.len] at hx
  rw [cholmodSolve_eq stale addr h.wf' (m := A'.shape.1) (n := n) (by rw [← h.cols']) hb.len', h.normalMatrix]
  generalize Jaxfg.normalMatrix (cooMatrix A A.shape.1 n) (l + 1 / 100000) = H at hx ⊢
  by_cases hH : H.PosDef
  · rw [if_pos hH] at hx
    cases hx
    rw [if_pos ((hH.submatrix σ.injective))]
    refine ⟨_, rfl, by simp, by simp, ?_⟩
    have e : ∀ f : Fin n → ℝ, vec (List.ofFn f) n = f := fun f => vec_ofVec f
    rw [e, e, hb.entry, inv_submatrix_equiv, submatrix_mulVec]
  · rw [if_neg hH] at hx
    cases hx

/-- Multiplying by `A` and then by its transpose. -/
theorem Spec.SameNormalEquations.matmul {n : Nat} {σ : Equiv.Perm (Fin n)} {A A' : Coo ℝ} (h : SameNormalEquations σ A A') {x x' y z : List ℝ}
    (hx : Permuted σ x x') (hy : A.matmul x = .ok y) (hz : A.T.matmul y = .ok z) :
    ∃ y' z', A'.matmul x' = .ok y' ∧ A'.T.matmul y' = .ok z' ∧ Permuted σ z z' := by
  obtain ⟨-, k2, k3⟩ := matmul_vec h.wf hy
  obtain ⟨-, k5, k6⟩ := matmul_vec (Props.cooWF_T h.wf) hz
  obtain ⟨y', e1, e2, e3⟩ := matmul_ok h.wf' (x := x') (by rw [hx.len', h.cols'])
  obtain ⟨z', e4, e5, e6⟩ := matmul_ok (Props.cooWF_T h.wf') (x := y') e2
  have lz : z.length = n := by rw [k5]; exact h.cols
  have lz' : z'.length = n := by rw [e5]; exact h.cols'
  refine ⟨y', z', e1, e4, lz, lz', ?_⟩
  obtain ⟨vs, rs, cs, m, c⟩ := A
  obtain ⟨vs', rs', cs', m', c'⟩ := A'
  have h1 : c = n := h.cols
  have h2 : c' = n := h.cols'
  subst h1 h2
  have f1 : vec z c' = (cooMatrix ⟨vs, rs, cs, m, c'⟩ m c')ᵀ *ᵥ vec y m := by rw [← Props.cooMatrix_T]; exact k6
  have f2 : vec z' c' = (cooMatrix ⟨vs', rs', cs', m', c'⟩ m' c')ᵀ *ᵥ vec y' m' := by rw [← Props.cooMatrix_T]; exact e6
  have f3 : vec y m = cooMatrix ⟨vs, rs, cs, m, c'⟩ m c' *ᵥ vec x c' := k3
  have f4 : vec y' m' = cooMatrix ⟨vs', rs', cs', m', c'⟩ m' c' *ᵥ vec x' c' := e3
  have hn := h.normal
  simp only at hn
  rw [f2, f4, mulVec_mulVec, hn, hx.entry, submatrix_mulVec, f1, f3, mulVec_mulVec]

theorem cg_normalOnly (tol : Nat → ℝ) : NormalOnlyDistinct fun A b l i => cgSolve A b l (tol i) := by
  intro n σ A A' b b' x l i h hn hn' hb hx
  simp only [cgSolve] at hx ⊢
  rw [hb.len] at hx
  rw [hb.len']
  have hd : Permuted σ (ataDiagonals A n) (ataDiagonals A' n) := by
    refine ⟨(ataDiagonals_ok h.wf n).1, (ataDiagonals_ok h.wf' n).1, ?_⟩
    rw [(ataDiagonals_ok h.wf n).2, (ataDiagonals_ok h.wf' n).2]
    funext j
    rw [colSquares_distinct h.wf' (m := A'.shape.1) (by rw [← h.cols']) hn', Function.comp,
      colSquares_distinct h.wf (m := A.shape.1) (by rw [← h.cols]) hn]
    have := congrFun (congrFun h.normal j) j
    simp only [mul_apply, transpose_apply, submatrix_apply] at this
    simpa [sq] using this
  simp only [List.length_replicate] at hx ⊢
  refine cg_perm (fun {x x' y} hx hy => ?_) (fun {x x'} hx => hx.zipWith hd _) hb (permuted_zero σ) n _ hx
  unfold ataFunction at hy ⊢
  simp only [py_bind_eq_ok, py_return_eq_ok] at hy ⊢
  obtain ⟨u, h1, w, h2, rfl⟩ := hy
  obtain ⟨u', w', h3, h5, h6⟩ := h.matmul hx h1 h2
  exact ⟨_, ⟨u', h3, w', h5, rfl⟩, h6.zipWith ((hd.map _).zipWith hx _) _⟩

/-! ### Residual vectors of two problems with the same information -/

section
variable {F : Nat → FactorClass} {C : Ty → VarClass ℝ} {fs fs' : List Factor}

/-- The piece of a factor without Huber wrapper: its noise model applied to a vector that only depends on what it measures. -/
noncomputable def gaussPiece (ρ : Nat × List Var × List (Arr ℝ) → Nat → ℝ) (f : Factor) : List ℝ :=
  ofVec (noiseMat f.noise (rdim f) (rdim f) *ᵥ fun i => ρ (quantity f) i)

open Classical in
/-- The piece of a factor. -/
noncomputable def infPiece (ρ : Nat × List Var × List (Arr ℝ) → Nat → ℝ) (p : Factor → List ℝ) (f : Factor) : List ℝ :=
  if NoiseGaussian f.noise then gaussPiece ρ f else p f

/-- Residual vectors of the two problems made from the same vectors. -/
def InfQ (fs fs' : List Factor) (r r' : List ℝ) : Prop :=
  ∃ ρ p, (∀ f ∈ fs, ¬ NoiseGaussian f.noise → (p f).length = rdim f) ∧ r = (evalOrder fs).flatMap (infPiece ρ p) ∧
    r' = (evalOrder fs').flatMap (infPiece ρ p)

theorem length_infPiece {ρ : Nat × List Var × List (Arr ℝ) → Nat → ℝ} {p : Factor → List ℝ} {f : Factor}
    (h : ¬ NoiseGaussian f.noise → (p f).length = rdim f) : (infPiece ρ p f).length = rdim f := by
  unfold infPiece
  split
  · exact length_ofVec _
  · exact h ‹_›

theorem vdot_pieces {ι : Type} {l : List ι} {w u : ι → List ℝ} (h : ∀ v ∈ l, (w v).length = (u v).length) :
    vdot (l.flatMap w) (l.flatMap u) = (l.map fun v => vdot (w v) (u v)).sum := by
  unfold vdot
  rw [zipWith_flatMap h]
  induction l with
  | nil => rfl
  | cons v l ih => simp only [List.flatMap_cons, List.sum_append, List.map_cons, List.sum_cons, ih fun v' hv' => h v' (by simp [hv'])]

/-- Two Gaussian pieces: a bilinear form of the precision. -/
theorem vdot_gaussPiece (ρ σ : Nat × List Var × List (Arr ℝ) → Nat → ℝ) (f : Factor) :
    vdot (gaussPiece ρ f) (gaussPiece σ f) =
      (fun i : Fin (rdim f) => ρ (quantity f) i) ⬝ᵥ (noisePrecision f.noise (rdim f) *ᵥ fun i => σ (quantity f) i) := by
  unfold gaussPiece noisePrecision
  rw [vdot_eq (length_ofVec _) (length_ofVec _), vec_ofVec, vec_ofVec, ← mulVec_mulVec, dotProduct_mulVec (v := fun i => ρ _ _),
    vecMul_transpose]

open Classical in
/-- Grouping a sum by a key. -/
theorem sum_by_key {α κ : Type} (l : List α) (key : α → κ) (φ : α → ℝ) (K : Finset κ) (hK : ∀ x ∈ l, key x ∈ K) :
    (l.map φ).sum = ∑ k ∈ K, ((l.filter fun x => key x = k).map φ).sum := by
  induction l with
  | nil => simp
  | cons x l ih =>
    rw [List.map_cons, List.sum_cons, ih fun y hy => hK y (by simp [hy])]
    have : ∀ k, (((x :: l).filter fun y => key y = k).map φ).sum =
        (if key x = k then φ x else 0) + ((l.filter fun y => key y = k).map φ).sum := by
      intro k
      by_cases hk : key x = k
      · rw [List.filter_cons_of_pos (by simpa using hk), if_pos hk]; rfl
      · rw [List.filter_cons_of_neg (by simpa using hk), if_neg hk, zero_add]
    simp only [this, Finset.sum_add_distrib]
    rw [Finset.sum_ite_eq, if_pos (hK x (by simp))]

open Classical in
theorem sum_form_information (ρ σ : Nat × List Var × List (Arr ℝ) → Nat → ℝ) (l : List Factor) (q : Nat × List Var × List (Arr ℝ)) (n : Nat) :
    (((l.filter fun f => NoiseGaussian f.noise).filter fun f => @decide ((quantity f, rdim f) = (q, n)) (Classical.propDecidable _)).map fun f =>
      vdot (gaussPiece ρ f) (gaussPiece σ f)).sum =
      (fun i : Fin n => ρ q i) ⬝ᵥ (information l q n *ᵥ fun i => σ q i) := by
  unfold information
  induction l with
  | nil => simp
  | cons f l ih =>
    by_cases hg : NoiseGaussian f.noise
    · rw [List.filter_cons_of_pos (by simpa using hg)]
      by_cases hk : quantity f = q ∧ rdim f = n
      · obtain ⟨rfl, rfl⟩ := hk
        rw [List.filter_cons_of_pos (by simp), List.filter_cons_of_pos (by simpa using hg), List.map_cons, List.map_cons, List.sum_cons,
          List.sum_cons, ih, vdot_gaussPiece, add_mulVec, dotProduct_add]
      · rw [List.filter_cons_of_neg (by simpa using hk), List.filter_cons_of_neg (by simpa using fun _ => not_and.1 hk), ih]
    · rw [List.filter_cons_of_neg (by simpa using hg), List.filter_cons_of_neg (by simp [hg]), ih]

open Classical in
theorem sum_split {α : Type} (l : List α) (P : α → Prop) (φ : α → ℝ) :
    (l.map φ).sum = ((l.filter fun x => P x).map φ).sum + ((l.filter fun x => ¬ P x).map φ).sum := by
  induction l with
  | nil => simp
  | cons x l ih =>
    by_cases hx : P x
    · rw [List.filter_cons_of_pos (by simpa using hx), List.filter_cons_of_neg (by simpa using hx)]
      simp only [List.map_cons, List.sum_cons, ih]; ring
    · rw [List.filter_cons_of_neg (by simpa using hx), List.filter_cons_of_pos (by simpa using hx)]
      simp only [List.map_cons, List.sum_cons, ih]; ring

/-- Inner products of pieces agree in sum. -/
theorem Spec.SameInformation.sum (h : SameInformation fs fs') (ρ σ : Nat × List Var × List (Arr ℝ) → Nat → ℝ) (p s : Factor → List ℝ) :
    (fs'.map fun f => vdot (infPiece ρ p f) (infPiece σ s f)).sum = (fs.map fun f => vdot (infPiece ρ p f) (infPiece σ s f)).sum := by
  classical
  rw [sum_split fs' (fun f => NoiseGaussian f.noise), sum_split fs (fun f => NoiseGaussian f.noise)]
  congr 1
  · have e : ∀ l : List Factor, ((l.filter fun f => NoiseGaussian f.noise).map fun f => vdot (infPiece ρ p f) (infPiece σ s f)) =
        (l.filter fun f => NoiseGaussian f.noise).map fun f => vdot (gaussPiece ρ f) (gaussPiece σ f) := by
      intro l
      apply List.map_congr_left
      intro f hf
      have hf : NoiseGaussian f.noise := by simpa using (List.mem_filter.1 hf).2
      unfold infPiece
      rw [if_pos hf, if_pos hf]
    rw [e, e]
    have hK : ∀ l : List Factor, l = fs ∨ l = fs' → ∀ f ∈ l.filter (fun f => NoiseGaussian f.noise),
        (quantity f, rdim f) ∈ ((fs ++ fs').map fun f => (quantity f, rdim f)).toFinset := by
      intro l hl f hf
      have hf := (List.mem_filter.1 hf).1
      rw [List.mem_toFinset, List.mem_map]
      rcases hl with rfl | rfl
      · exact ⟨f, by simp [hf], rfl⟩
      · exact ⟨f, by simp [hf], rfl⟩
    rw [sum_by_key _ (fun f => (quantity f, rdim f)) _ _ (hK fs' (.inr rfl)), sum_by_key _ (fun f => (quantity f, rdim f)) _ _ (hK fs (.inl rfl))]
    apply Finset.sum_congr rfl
    rintro ⟨q, n⟩ -
    rw [sum_form_information, sum_form_information, h.gaussian]
  · exact ((h.robust.map _).sum_eq).symm

theorem InfQ.length {r r' : List ℝ} (h : InfQ fs fs' r r') : r.length = total rdim (evalOrder fs) := by
  obtain ⟨ρ, p, hp, rfl, -⟩ := h
  exact length_flatMap_blocks fun f hf => length_infPiece (hp f (mem_groupedBy.1 hf))

theorem robust_mem (h : SameInformation fs fs') {f : Factor} (hf : f ∈ fs') (hn : ¬ NoiseGaussian f.noise) : f ∈ fs := by
  classical
  have : f ∈ fs'.filter fun f => ¬ NoiseGaussian f.noise := List.mem_filter.2 ⟨hf, by simpa using hn⟩
  exact (List.mem_filter.1 (h.robust.mem_iff.2 this)).1

theorem InfQ.length' (hI : SameInformation fs fs') {r r' : List ℝ} (h : InfQ fs fs' r r') : r'.length = total rdim (evalOrder fs') := by
  obtain ⟨ρ, p, hp, -, rfl⟩ := h
  exact length_flatMap_blocks fun f hf => length_infPiece fun hn => hp f (robust_mem hI (mem_groupedBy.1 hf) hn) hn

/-- Inner products agree. -/
theorem InfQ.vdot (hI : SameInformation fs fs') {r r' y y' : List ℝ} (h : InfQ fs fs' r r') (h2 : InfQ fs fs' y y') :
    Jaxfg.vdot r' y' = Jaxfg.vdot r y := by
  obtain ⟨ρ, p, hp, rfl, rfl⟩ := h
  obtain ⟨σ, s, hs, rfl, rfl⟩ := h2
  have pe : ∀ l : List Factor, (evalOrder l).Perm l := groupedBy_perm kind
  rw [vdot_pieces fun f hf => ?_, vdot_pieces fun f hf => ?_, ((pe fs').map _).sum_eq, ((pe fs).map _).sum_eq]
  · exact hI.sum ρ σ p s
  · rw [length_infPiece (hp f (mem_groupedBy.1 hf)), length_infPiece (hs f (mem_groupedBy.1 hf))]
  · rw [length_infPiece fun hn => hp f (robust_mem hI (mem_groupedBy.1 hf) hn) hn,
      length_infPiece fun hn => hs f (robust_mem hI (mem_groupedBy.1 hf) hn) hn]

theorem vdot_self (l : List ℝ) : vdot l l = sqNorm l := by
  unfold vdot
  induction l with
  | nil => rfl
  | cons x l ih => simp only [List.zipWith_cons_cons, List.sum_cons, ih, sqNorm, List.map_cons]; ring

theorem InfQ.sq (hI : SameInformation fs fs') {r r' : List ℝ} (h : InfQ fs fs' r r') : sqNorm r' = sqNorm r := by
  rw [← vdot_self, ← vdot_self, h.vdot hI h]

theorem InfQ.neg {r r' : List ℝ} (h : InfQ fs fs' r r') : InfQ fs fs' (r.map fun x => -x) (r'.map fun x => -x) := by
  obtain ⟨ρ, p, hp, rfl, rfl⟩ := h
  have e : ∀ f, (infPiece ρ p f).map (fun x => -x) = infPiece (fun q i => -ρ q i) (fun f => (p f).map fun x => -x) f := by
    intro f
    unfold infPiece
    split
    · unfold gaussPiece ofVec
      rw [List.map_ofFn]
      congr 1
      have : (fun i : Fin (rdim f) => -ρ (quantity f) i) = -fun i : Fin (rdim f) => ρ (quantity f) i := rfl
      rw [this, mulVec_neg]
      rfl
    · rfl
  refine ⟨fun q i => -ρ q i, fun f => (p f).map fun x => -x, fun f hf hn => by rw [List.length_map, hp f hf hn], ?_, ?_⟩
  · rw [List.map_flatMap]; exact List.flatMap_congr fun f _ => e f
  · rw [List.map_flatMap]; exact List.flatMap_congr fun f _ => e f

theorem predicted_eq_vdot {y r : List ℝ} (h : y.length = r.length) : predicted y r = vdot y y + 2 * vdot y r + vdot r r := by
  unfold predicted
  rw [sqNorm_eq (n := r.length) (by simp [h]), vec_add_list h rfl, vdot_eq h h, vdot_eq h rfl, vdot_eq rfl rfl, add_dotProduct,
    dotProduct_add, dotProduct_add, dotProduct_comm (vec r _) (vec y _)]
  ring

theorem InfQ.predicted (hI : SameInformation fs fs') {r r' y y' : List ℝ} (h : InfQ fs fs' y y') (h2 : InfQ fs fs' r r') :
    Jaxfg.predicted y' r' = Jaxfg.predicted y r := by
  rw [predicted_eq_vdot (by rw [h.length' hI, h2.length' hI]), predicted_eq_vdot (by rw [h.length, h2.length]), h.vdot hI h, h.vdot hI h2,
    h2.vdot hI h2]

/-! ### Residuals and Jacobians -/

/-- `self` of the factors that measure `q`, with some noise model. -/
def quantitySelf (q : Nat × List Var × List (Arr ℝ)) : FactorSelf := ⟨q.2.1.map (·.ty), .diagonal ⟨[], []⟩, q.2.2⟩

theorem residual_quantity {f : Factor} (hb : NoiseBlind (F f.cls)) (vals : List (Value ℝ)) :
    (F f.cls).residual f.self vals = (F (quantity f).1).residual (quantitySelf (quantity f)) vals :=
  ((hb f.self (.diagonal ⟨[], []⟩) vals).1).symm

theorem jacobians_quantity {f : Factor} (hb : NoiseBlind (F f.cls)) (vals : List (Value ℝ)) :
    (F f.cls).jacobians f.self vals = (F (quantity f).1).jacobians (quantitySelf (quantity f)) vals :=
  ((hb f.self (.diagonal ⟨[], []⟩) vals).2).symm

/-- The whitened residual of a factor without Huber wrapper. -/
theorem whitened_gaussPiece {f : Factor} (hf : FactorWF F C f) (hb : NoiseBlind (F f.cls)) (hg : NoiseGaussian f.noise)
    {val : Var → Value ℝ} (hv : ValuesFor C f.vars (f.vars.map val)) {w : List ℝ} (hw : whitenedAt F val f = .ok w) :
    w = gaussPiece (fun q i => ((F q.1).residual (quantitySelf q) (q.2.1.map val)).getD i 0) f := by
  have hl := hf.residual _ hv
  obtain ⟨w', h1, h2, h3⟩ := whiten_gaussian hf.noise hg hl
  obtain rfl : w' = w := Except.ok.inj (h1.symm.trans hw)
  refine ext_vec h2 (length_ofVec _) ?_
  rw [h3, gaussPiece, vec_ofVec]
  congr 1
  funext i
  rw [residual_quantity hb]
  rfl

theorem forall₂_of_mapM {α β : Type} {f : α → Py β} {as : List α} {bs : List β} (h : as.mapM f = .ok bs) :
    List.Forall₂ (fun a b => f a = .ok b) as bs := by
  induction as generalizing bs with
  | nil => cases h; exact .nil
  | cons a as ih =>
    rw [List.mapM_cons] at h
    simp only [py_bind_eq_ok, py_return_eq_ok] at h
    obtain ⟨b, h1, bs', h2, rfl⟩ := h
    exact .cons h1 (ih h2)

/-- The product of the whitened Jacobians of a factor without Huber wrapper with a vector. -/
theorem facProd_gaussPiece {f : Factor} (hf : FactorWF F C f) (hb : NoiseBlind (F f.cls)) (hg : NoiseGaussian f.noise)
    {val : Var → Value ℝ} (hv : ValuesFor C f.vars (f.vars.map val)) {r : List ℝ} (hr : r.length = rdim f) {R : Factor → List (Arr ℝ)}
    (hR : ((F f.cls).jacobians f.self (f.vars.map val)).mapM (fun J => f.noise.whitenJacobian J r) = .ok (R f)) (lpos : Var → Nat) (x : List ℝ) :
    facProd C lpos R x f = gaussPiece (fun q i => ∑ k ∈ Finset.range q.2.1.length,
      blockProd C lpos x (q.2.1.getD k ⟨0, 0⟩) (((F q.1).jacobians (quantitySelf q) (q.2.1.map val)).getD k ⟨[], []⟩) i) f := by
  have hJ := hf.jacobians _ hv
  have hM := forall₂_of_mapM hR
  rw [jacobians_quantity hb] at hJ hM
  refine ext_vec length_facProd (length_ofVec _) ?_
  rw [gaussPiece, vec_ofVec]
  funext i
  rw [vec_eq length_facProd]
  simp only [facProd, List.getElem_map, List.getElem_range, mulVec, dotProduct]
  simp only [Finset.mul_sum]
  rw [Finset.sum_comm]
  have hq : (quantity f).2.1 = f.vars := rfl
  simp only [hq]
  apply Finset.sum_congr rfl
  intro k hk
  have hk : k < f.vars.length := Finset.mem_range.1 hk
  generalize (F (quantity f).1).jacobians (quantitySelf (quantity f)) (f.vars.map val) = Js at hJ hM
  have hk2 : k < Js.length := by rw [← hJ.length_eq]; exact hk
  have hk3 : k < (R f).length := by rw [← hM.length_eq]; exact hk2
  have e1 := (List.forall₂_iff_get.1 hJ).2 k hk hk2
  have e2 := (List.forall₂_iff_get.1 hM).2 k hk2 hk3
  simp only [List.get_eq_getElem] at e1 e2
  have g1 : f.vars.getD k ⟨0, 0⟩ = f.vars[k] := by simp [hk]
  have g2 : Js.getD k ⟨[], []⟩ = Js[k] := by simp [hk2]
  have g3 : (R f).getD k ⟨[], []⟩ = (R f)[k] := by simp [hk3]
  rw [g1, g2, g3]
  obtain ⟨R', h1, -, h3⟩ := whitenJacobian_gaussian hf.noise hg e1 hr
  obtain rfl : R' = (R f)[k] := Except.ok.inj (h1.symm.trans e2)
  unfold blockProd
  simp only [Finset.mul_sum]
  rw [Finset.sum_comm]
  apply Finset.sum_congr rfl
  intro c hc
  have hc : c < _ := Finset.mem_range.1 hc
  have := congrFun (congrFun h3 i) ⟨c, hc⟩
  simp only [mul_apply] at this
  have e : (R f)[k].at2 (C f.vars[k].ty).localDim i c = arrMat (R f)[k] (rdim f) (C f.vars[k].ty).localDim i ⟨c, hc⟩ := rfl
  rw [e, this, Finset.sum_mul]
  apply Finset.sum_congr rfl
  intro j _
  rw [mul_assoc]
  rfl

/-! ### The two problems -/

/-- Jacobians whose products with corresponding vectors correspond. -/
def InfJ (C : Ty → VarClass ℝ) (fs fs' : List Factor) {n : Nat} (σ : Equiv.Perm (Fin n)) (A A' : Coo ℝ) : Prop :=
  SameNormalEquations σ A A' ∧ (A.shape.1 = total rdim (evalOrder fs) ∧ A'.shape.1 = total rdim (evalOrder fs')) ∧
    (((∀ f ∈ fs, f.vars.Nodup) ∧ ∀ f ∈ fs', f.vars.Nodup) → (A.rows.zip A.cols).Nodup ∧ (A'.rows.zip A'.cols).Nodup) ∧
    ∀ d d' y, OrdD C fs fs' d d' → A.matmul d = .ok y → ∃ y', A'.matmul d' = .ok y' ∧ InfQ fs fs' y y'

theorem Spec.SameInformation.variablesOf (h : SameInformation fs fs') : (Graph.variablesOf fs).Perm (Graph.variablesOf fs') :=
  (List.perm_ext_iff_of_nodup (variablesOf_spec fs).1 (variablesOf_spec fs').1).2 fun v => by
    rw [(variablesOf_spec fs).2, (variablesOf_spec fs').2, h.vars]

variable {g g' : Graph} {L : LinSolver ℝ}

/-- Column `j` of a matrix, as a product. -/
theorem matmul_single {A : Coo ℝ} (hA : CooWF A) {n : Nat} (hn : A.shape.2 = n) (j : Fin n) {y : List ℝ}
    (h : A.matmul (ofVec (Pi.single j (1 : ℝ))) = .ok y) : y.length = A.shape.1 ∧ vec y A.shape.1 = fun i => cooMatrix A A.shape.1 n i j := by
  subst hn
  obtain ⟨-, h2, h3⟩ := matmul_vec hA h
  rw [vec_ofVec, mulVec_single_one] at h3
  exact ⟨h2, h3⟩

theorem information_sim (hC : GoodClasses C) (hfs : ∀ f ∈ fs, FactorWF F C f) (hfs' : ∀ f ∈ fs', FactorWF F C f) (hne : fs ≠ [])
    (hne' : fs' ≠ []) (hb : ∀ f ∈ fs ++ fs', NoiseBlind (F f.cls)) (hI : SameInformation fs fs') (hg : GraphOf F C fs g)
    (hg' : GraphOf F C fs' g')
    (hnd : ((∀ f ∈ fs, f.vars.Nodup) ∧ ∀ f ∈ fs', f.vars.Nodup) → g.jacobianCoords.Nodup ∧ g'.jacobianCoords.Nodup)
    (hL : NormalOnly L ∨ NormalOnlyDistinct L ∧ (∀ f ∈ fs, f.vars.Nodup) ∧ ∀ f ∈ fs', f.vars.Nodup) :
    ∃ σ : Equiv.Perm (Fin g.localLayout.dim),
      Sim C C (g.ops F C) (g'.ops F C) L L (OrdR C fs fs') (InfQ fs fs') (OrdD C fs fs') (InfJ C fs fs' σ) := by
  classical
  have hs := variablesOf_spec fs
  have hs' := variablesOf_spec fs'
  have hp := hI.variablesOf
  have hpv : (grouped (Graph.variablesOf fs)).Perm (grouped (Graph.variablesOf fs')) := (grouped_perm _).trans (hp.trans (grouped_perm _).symm)
  have hm : g.residualDim = total rdim (evalOrder fs) := by rw [hg.residualDim]
  have hm' : g'.residualDim = total rdim (evalOrder fs') := by rw [hg'.residualDim]
  have hn : total (fun v : Var => (C v.ty).localDim) (grouped (Graph.variablesOf fs)) = g.localLayout.dim := by
    rw [hg.localLayout, make_dim C hs.1]; rfl
  have hn' : g'.localLayout.dim = g.localLayout.dim := by
    rw [hg'.localLayout, make_dim C hs'.1, ← hn]; exact (total_perm hpv).symm
  obtain ⟨σ, hσ⟩ := blocks_positions (dim := fun v : Var => (C v.ty).localDim) hpv hn
  have hbl : ∀ f, f ∈ fs ∨ f ∈ fs' → NoiseBlind (F f.cls) := fun f h => hb f (List.mem_append.2 h)
  have holds : ∀ {a a' val}, Stores C (Graph.variablesOf fs) val a → Stores C (Graph.variablesOf fs') val a' →
      Holds C fs (Graph.variablesOf fs) val a ∧ Holds C fs' (Graph.variablesOf fs') val a' :=
    fun h1 h2 => ⟨h1.holds hs.2, h2.holds hs'.2⟩
  -- vectors that are permuted copies have the same blocks
  have toD : ∀ {d d'}, Permuted σ d d' → OrdD C fs fs' d d' := by
    intro d d' h
    obtain ⟨e, d2, -, -, h3⟩ := exists_ordD (C := C) hp (d := d) (by rw [h.len, hg.localLayout])
    rw [h.unique (hσ _ _ h3)]
    exact h3
  have single : ∀ j, Permuted σ (ofVec (Pi.single (σ j) (1 : ℝ))) (ofVec (Pi.single j (1 : ℝ))) := by
    intro j
    refine ⟨length_ofVec _, length_ofVec _, ?_⟩
    rw [vec_ofVec, vec_ofVec]
    funext k
    simp only [Function.comp, Pi.single_apply, σ.injective.eq_iff]
  refine ⟨σ, ?_⟩
  constructor
  case cost =>
    rintro a a' c r ⟨val, h1, h2⟩ hc
    obtain ⟨k1, k2⟩ := holds h1 h2
    obtain ⟨w, hw⟩ := k1.whitened hC hfs
    obtain ⟨w', hw'⟩ := k2.whitened hC hfs'
    have e1 := Props.cost_ok _ _ hC hne hfs hg k1 fun f hf => (hw f hf).1
    have e2 := Props.cost_ok _ _ hC hne' hfs' hg' k2 fun f hf => (hw' f hf).1
    have hc : g.computeCost F C a = .ok (c, r) := hc
    rw [e1] at hc
    cases hc
    let ρ : Nat × List Var × List (Arr ℝ) → Nat → ℝ := fun q i => ((F q.1).residual (quantitySelf q) (q.2.1.map val)).getD i 0
    have p1 : ∀ f ∈ fs, w f = infPiece ρ w f := by
      intro f hf
      unfold infPiece
      split
      · exact whitened_gaussPiece (hfs f hf) (hbl f (.inl hf)) ‹_› (k1.valuesFor hC hf) (hw f hf).1
      · rfl
    have p2 : ∀ f ∈ fs', w' f = infPiece ρ w f := by
      intro f hf
      unfold infPiece
      split
      · exact whitened_gaussPiece (hfs' f hf) (hbl f (.inr hf)) ‹_› (k2.valuesFor hC hf) (hw' f hf).1
      · have := (hw f (robust_mem hI hf ‹_›)).1
        rw [(hw' f hf).1] at this
        exact Except.ok.inj this
    refine ⟨(evalOrder fs').flatMap w', ?_, ρ, w, fun f hf _ => (hw f hf).2, ?_, ?_⟩
    · show g'.computeCost F C a' = _
      rw [e2]
      have := hI.sum ρ ρ w w
      simp only [vdot_self] at this
      rw [List.map_congr_left (g := fun f => sqNorm (infPiece ρ w f)) fun f hf => by rw [p2 f hf], this,
        List.map_congr_left (g := fun f => sqNorm (w f)) fun f hf => by rw [← p1 f hf]]
    · exact List.flatMap_congr fun f hf => p1 f (mem_groupedBy.1 hf)
    · exact List.flatMap_congr fun f hf => p2 f (mem_groupedBy.1 hf)
  case jac =>
    rintro a a' r r' A ⟨val, h1, h2⟩ ⟨⟨ρ, p, hp0, rfl, rfl⟩, -⟩ hA
    have hw : ∀ f ∈ fs, (infPiece ρ p f).length = rdim f := fun f hf => length_infPiece (hp0 f hf)
    have hw' : ∀ f ∈ fs', (infPiece ρ p f).length = rdim f := fun f hf => length_infPiece fun hn => hp0 f (robust_mem hI hf hn) hn
    obtain ⟨k1, k2⟩ := holds h1 h2
    obtain ⟨R, hR⟩ : ∃ R : Factor → List (Arr ℝ), ∀ f, f ∈ fs ∨ f ∈ fs' →
        ((F f.cls).jacobians f.self (f.vars.map val)).mapM (fun J => f.noise.whitenJacobian J (infPiece ρ p f)) = .ok (R f) := by
      have : ∀ f : Factor, ∃ R', f ∈ fs ∨ f ∈ fs' →
          ((F f.cls).jacobians f.self (f.vars.map val)).mapM (fun J => f.noise.whitenJacobian J (infPiece ρ p f)) = .ok R' :=
        fun f => by
          by_cases hf : f ∈ fs
          · obtain ⟨R', e1, e2⟩ := whitenedJacobians_ok (hfs f hf) (k1.valuesFor hC hf) (hw f hf)
            exact ⟨R', fun _ => e1⟩
          · by_cases hf' : f ∈ fs'
            · obtain ⟨R', e1, e2⟩ := whitenedJacobians_ok (hfs' f hf') (k2.valuesFor hC hf') (hw' f hf')
              exact ⟨R', fun _ => e1⟩
            · exact ⟨[], fun h => absurd h (by simp [hf, hf'])⟩
      choose R hR using this
      exact ⟨R, hR⟩
    obtain ⟨A0, e1, -, e3, e4, e5, -, e7⟩ := jacobian_explicit hC hfs hne hg k1 hw fun f hf => hR f (.inl hf)
    obtain ⟨A1, f1, -, f3, f4, f5, -, f7⟩ := jacobian_explicit hC hfs' hne' hg' k2 hw' fun f hf => hR f (.inr hf)
    have hA : g.computeWhitenedResidualJacobian F C a _ = .ok A := hA
    obtain rfl : A0 = A := by rw [e1] at hA; exact Except.ok.inj hA
    have prod : ∀ d d' y, OrdD C fs fs' d d' → A0.matmul d = .ok y → ∃ y', A1.matmul d' = .ok y' ∧ InfQ fs fs' y y' := by
      intro d d' y hd hy
      have l1 := (hσ _ _ hd).len
      have l2 := (hσ _ _ hd).len'
      obtain ⟨e, he1, rfl, rfl⟩ := hd
      have r1 : Rep C (Graph.variablesOf fs) true e ⟨_, g.localLayout⟩ := ⟨hs.1, hg.localLayout, fun v hv => he1 v (mem_grouped.2 hv), rfl⟩
      have r2 : Rep C (Graph.variablesOf fs') true e ⟨_, g'.localLayout⟩ :=
        ⟨hs'.1, hg'.localLayout, fun v hv => he1 v (hpv.mem_iff.2 (mem_grouped.2 hv)), rfl⟩
      rw [e7 _ l1] at hy
      cases hy
      refine ⟨_, f7 _ (by rw [l2, hn']), fun q i => ∑ k ∈ Finset.range q.2.1.length,
          blockProd C (posIn g.localLayout) ((grouped (Graph.variablesOf fs)).flatMap e) (q.2.1.getD k ⟨0, 0⟩)
            (((F q.1).jacobians (quantitySelf q) (q.2.1.map val)).getD k ⟨[], []⟩) i,
        facProd C (posIn g.localLayout) R ((grouped (Graph.variablesOf fs)).flatMap e), fun f _ _ => length_facProd, ?_, ?_⟩
      · apply List.flatMap_congr
        intro f hf
        have hf : f ∈ fs := mem_groupedBy.1 hf
        unfold infPiece
        split
        · exact facProd_gaussPiece (hfs f hf) (hbl f (.inl hf)) ‹_› (k1.valuesFor hC hf) (hw f hf) (hR f (.inl hf)) _ _
        · rfl
      · apply List.flatMap_congr
        intro f hf
        have hf : f ∈ fs' := mem_groupedBy.1 hf
        refine (facProd_blocks r1 r2 (fun v hv => (hs.2 v).2 ((hI.vars v).2 ⟨f, hf, hv⟩)) fun v hv => (hs'.2 v).2 ⟨f, hf, hv⟩).symm.trans ?_
        unfold infPiece
        split
        · exact facProd_gaussPiece (hfs' f hf) (hbl f (.inr hf)) ‹_› (k2.valuesFor hC hf) (hw' f hf) (hR f (.inr hf)) _ _
        · rfl
    have c1 : A0.shape.2 = g.localLayout.dim := by rw [e4]
    have c2 : A1.shape.2 = g.localLayout.dim := by rw [f4, hn']
    refine ⟨A1, f1, ⟨e3, f3, c1, c2, ?_⟩, ⟨by rw [e4, hm], by rw [f4, hm']⟩, fun h => by rw [e5, f5]; exact hnd h, prod⟩
    have col : ∀ j : Fin g.localLayout.dim, ∃ y y', InfQ fs fs' y y' ∧ y.length = A0.shape.1 ∧ y'.length = A1.shape.1 ∧
        (vec y A0.shape.1 = fun i => cooMatrix A0 A0.shape.1 g.localLayout.dim i (σ j)) ∧
        vec y' A1.shape.1 = fun i => cooMatrix A1 A1.shape.1 g.localLayout.dim i j := by
      intro j
      obtain ⟨y, hy, -, -⟩ := matmul_ok e3 (x := ofVec (Pi.single (σ j) (1 : ℝ))) (by rw [length_ofVec, c1])
      obtain ⟨y', hy', hQ⟩ := prod _ _ _ (toD (single j)) hy
      obtain ⟨q1, q2⟩ := matmul_single e3 c1 _ hy
      obtain ⟨q3, q4⟩ := matmul_single f3 c2 _ hy'
      exact ⟨y, y', hQ, q1, q3, q2, q4⟩
    funext i j
    obtain ⟨y, y', a1, a2, a3, a4, a5⟩ := col i
    obtain ⟨z, z', b1, b2, b3, b4, b5⟩ := col j
    have := a1.vdot hI b1
    rw [vdot_eq a3 b3, vdot_eq a2 b2, a4, a5, b4, b5] at this
    simpa only [mul_apply, transpose_apply, submatrix_apply, dotProduct] using this
  case grad =>
    rintro A A' r r' z ⟨h1, ⟨hm1, hm2⟩, -, h3⟩ hr hz
    obtain ⟨-, k2, k3⟩ := matmul_vec (Props.cooWF_T h1.wf) hz
    obtain ⟨z', e1, e2, e3⟩ := matmul_ok (Props.cooWF_T h1.wf') (x := r') (by rw [hr.length' hI]; exact hm2.symm)
    refine ⟨z', e1, toD ⟨by rw [k2]; exact h1.cols, by rw [e2]; exact h1.cols', ?_⟩⟩
    obtain ⟨vs, rs, cs, m, c⟩ := A
    obtain ⟨vs', rs', cs', m', c'⟩ := A'
    obtain ⟨w1, w2, u1, u2, -⟩ := h1
    simp only at u1 u2 hm1 hm2
    subst u1 u2
    funext j
    have s1 : vec z g.localLayout.dim = (cooMatrix ⟨vs, rs, cs, m, g.localLayout.dim⟩ m g.localLayout.dim)ᵀ *ᵥ vec r m := by
      rw [← Props.cooMatrix_T]; exact k3
    have s2 : vec z' g.localLayout.dim = (cooMatrix ⟨vs', rs', cs', m', g.localLayout.dim⟩ m' g.localLayout.dim)ᵀ *ᵥ vec r' m' := by
      rw [← Props.cooMatrix_T]; exact e3
    obtain ⟨y, hy, -, -⟩ := matmul_ok w1 (x := ofVec (Pi.single (σ j) (1 : ℝ))) (length_ofVec _)
    obtain ⟨y', hy', hQ⟩ := h3 _ _ _ (toD (single j)) hy
    obtain ⟨q1, q2⟩ := matmul_single w1 rfl _ hy
    obtain ⟨q3, q4⟩ := matmul_single w2 rfl _ hy'
    have := hQ.vdot hI hr
    rw [vdot_eq q3 (by rw [hr.length' hI]; exact hm2.symm), vdot_eq q1 (by rw [hr.length]; exact hm1.symm), q2, q4] at this
    rw [s2, Function.comp, s1]
    exact this
  case mul =>
    rintro A A' d d' y ⟨-, -, -, h3⟩ hd hy
    exact h3 _ _ _ hd hy
  case linear =>
    rintro A A' b b' l i x ⟨h1, -, h2, -⟩ hb hx
    rcases hL with hL | ⟨hL, hv⟩
    · obtain ⟨x', k1, k2⟩ := hL _ σ A A' b b' x l i h1 (hσ _ _ hb) hx
      exact ⟨x', k1, toD k2⟩
    · obtain ⟨x', k1, k2⟩ := hL _ σ A A' b b' x l i h1 (h2 hv).1 (h2 hv).2 (hσ _ _ hb) hx
      exact ⟨x', k1, toD k2⟩
  case retract =>
    rintro a a' d d' b ⟨val, h1, h2⟩ ⟨e, he, rfl, rfl⟩ hb
    have r1 : Rep C (Graph.variablesOf fs) true e ⟨_, g.localLayout⟩ := ⟨hs.1, hg.localLayout, fun v hv => he v (mem_grouped.2 hv), rfl⟩
    have r2 : Rep C (Graph.variablesOf fs') true e ⟨_, g'.localLayout⟩ :=
      ⟨hs'.1, hg'.localLayout, fun v hv => he v (hpv.mem_iff.2 (mem_grouped.2 hv)), rfl⟩
    obtain ⟨b1, k1, k2⟩ := h1.retract hC r1
    obtain ⟨b2, k3, k4⟩ := h2.retract hC r2
    obtain rfl : b1 = b := Except.ok.inj (k1.symm.trans hb)
    exact ⟨b2, k3, _, k2, k4⟩
  case size =>
    rintro a a' ⟨val, h1, h2⟩
    rw [h1.1.storage_length, h2.1.storage_length]
    exact (total_perm hpv).symm
  case wf => rintro A A' ⟨h, -⟩; exact ⟨h.wf, h.wf'⟩
  case qlen => exact fun h h2 _ => by rw [h.length' hI, h2.length' hI]
  case qneg => exact fun h => h.neg
  case qpred => exact fun h h2 => h.predicted hI h2
  case qsq => exact fun h => h.sq hI
  case dlen => exact fun h => (h.perm hpv).length_eq.symm
  case dneg => exact fun h => h.map _
  case dmul => exact fun c h => h.map _
  case dadd => exact fun h h2 => h.zipWith hpv h2 _
  case dsub => exact fun h h2 => h.zipWith hpv h2 _
  case ddot => exact fun h h2 => h.dot hpv h2

end

end Jaxfg
