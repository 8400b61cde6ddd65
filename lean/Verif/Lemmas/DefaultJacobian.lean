/- Lemmas for the default Jacobians. -/
import Verif.Model.DefaultJacobian
import Verif.Spec.DefaultJacobian
import Verif.Lemmas.Linearize
import Mathlib.Analysis.Calculus.Deriv.Comp
import Mathlib.Analysis.Calculus.Deriv.Prod
import Mathlib.Analysis.Calculus.Deriv.Mul
import Mathlib.Analysis.Calculus.FDeriv.Comp

namespace Jaxfg
open Matrix Spec

/-- Sum of products of corresponding elements. -/
def dotL (a b : List ℝ) : ℝ := (List.zipWith (· * ·) a b).sum

theorem dotL_append {a b c d : List ℝ} (h : a.length = c.length) : dotL (a ++ b) (c ++ d) = dotL a c + dotL b d := by
  unfold dotL
  rw [List.zipWith_append h, List.sum_append]

theorem dotL_eq {a b : List ℝ} {n : Nat} (ha : a.length = n) (hb : b.length = n) : dotL a b = ∑ k : Fin n, a.getD k 0 * b.getD k 0 := by
  subst ha
  induction a generalizing b with
  | nil => simp [dotL]
  | cons x a ih =>
    cases b with
    | nil => simp at hb
    | cons y b =>
      simp only [List.length_cons, Nat.add_right_cancel_iff] at hb
      have := ih hb
      unfold dotL at this ⊢
      rw [List.zipWith_cons_cons, List.sum_cons, this]
      exact (Fin.sum_univ_succ (n := a.length) fun k => (x :: a).getD k 0 * (y :: b).getD k 0).symm

theorem forall₂_mem_right {α β : Type _} {R : α → β → Prop} {l : List α} {l' : List β} (h : List.Forall₂ R l l') {b : β}
    (hb : b ∈ l') : ∃ a ∈ l, R a b := by
  induction h with
  | nil => simp at hb
  | cons h1 _ ih =>
    rcases List.mem_cons.1 hb with rfl | hb
    · exact ⟨_, by simp, h1⟩
    · obtain ⟨a, ha, hab⟩ := ih hb
      exact ⟨a, by simp [ha], hab⟩

/-- Reshaped leaves and the concatenation along the last axis. -/
theorem residualBlock_ok {rd : Nat} (hrd : 0 < rd) {shapes : List (List Nat)} {D : List (Arr ℝ)} (hne : D ≠ [])
    (hD : List.Forall₂ (fun s a => a.shape = rd :: s ∧ a.data.length = a.size) shapes D) :
    ∃ M, residualBlock rd D = .ok M ∧ IsMat M rd (shapes.map List.prod).sum ∧
      (∀ r < rd, (D.flatMap fun a => slice a.data (r * a.shape.tail.prod) a.shape.tail.prod).length = (shapes.map List.prod).sum) ∧
      ∀ r < rd, ∀ k < (shapes.map List.prod).sum, M.at2 (shapes.map List.prod).sum r k =
        (D.flatMap fun a => slice a.data (r * a.shape.tail.prod) a.shape.tail.prod).getD k 0 := by
  have hsize : ∀ a ∈ D, a.data.length = rd * a.shape.tail.prod ∧ a.shape.tail.prod = a.data.length / rd := by
    intro a ha
    obtain ⟨s, -, h1, h2⟩ := forall₂_mem_right hD ha
    rw [Arr.size, h1, List.prod_cons] at h2
    rw [h1, List.tail_cons, h2]
    exact ⟨rfl, (Nat.mul_div_cancel_left _ hrd).symm⟩
  have hcols : (D.map fun a => a.shape.tail.prod) = shapes.map List.prod := by
    clear hsize hne
    induction hD with
    | nil => rfl
    | cons h _ ih => simp [h.1, ih]
  have hlen : ∀ r < rd, (D.flatMap fun a => slice a.data (r * a.shape.tail.prod) a.shape.tail.prod).length = (shapes.map List.prod).sum := by
    intro r hr
    rw [length_flatMap_blocks (dim := fun a : Arr ℝ => a.shape.tail.prod), total, hcols]
    intro a ha
    apply length_slice
    rw [(hsize a ha).1]
    calc r * a.shape.tail.prod + a.shape.tail.prod = (r + 1) * a.shape.tail.prod := by ring
      _ ≤ rd * a.shape.tail.prod := Nat.mul_le_mul_right _ hr
  have hre : D.mapM (reshapeRows rd) = .ok (D.map fun a => ⟨[rd, a.shape.tail.prod], a.data⟩) := by
    apply mapM_ok
    intro a ha
    unfold reshapeRows
    rw [if_pos ⟨by omega, by rw [(hsize a ha).1]; simp⟩, ← (hsize a ha).2]
  refine ⟨⟨[rd, ((D.map fun a => (⟨[rd, a.shape.tail.prod], a.data⟩ : Arr ℝ)).map (·.numCols)).sum],
    (List.range rd).flatMap fun i => (D.map fun a => (⟨[rd, a.shape.tail.prod], a.data⟩ : Arr ℝ)).flatMap fun a =>
      slice a.data (i * a.numCols) a.numCols⟩, ?_, ?_, hlen, ?_⟩
  · unfold residualBlock
    rw [hre, py_bind_ok, concatCols, if_neg (by simpa using hne), if_pos (by simp)]
  · refine ⟨?_, ?_⟩
    · simp only [List.map_map, ← hcols]; rfl
    · simp only [List.flatMap_map, Arr.numCols]
      rw [flatMap_const_length _ _ (shapes.map List.prod).sum, List.length_range]
      intro r hr
      rw [List.mem_range] at hr
      simpa using hlen r hr
  · intro r hr k hk
    unfold Arr.at2
    simp only [List.flatMap_map, Arr.numCols]
    rw [getD_flatMap_rows _ _ (shapes.map List.prod).sum _ _ _ _ (by simpa using hr) hk]
    · simp
    · intro r hr
      rw [List.mem_range] at hr
      simpa using hlen r hr

/-- Reshaped leaves and the concatenation along the first axis. -/
theorem retractBlock_ok {ld : Nat} (hld : 0 < ld) {shapes : List (List Nat)} {E : List (Arr ℝ)} (hne : E ≠ [])
    (hE : List.Forall₂ (fun s a => a.shape = s ++ [ld] ∧ a.data.length = a.size) shapes E) :
    ∃ N, retractBlock ld E = .ok N ∧ IsMat N (shapes.map List.prod).sum ld ∧
      arrMat N (shapes.map List.prod).sum ld = stackedMatrix (shapes.map List.prod).sum ld E := by
  have hsize : ∀ a ∈ E, a.data.length % ld = 0 := by
    intro a ha
    obtain ⟨s, -, h1, h2⟩ := forall₂_mem_right hE ha
    rw [h2, Arr.size, h1]; simp
  have hrows : (E.map fun a => a.data.length / ld) = shapes.map List.prod := by
    clear hsize hne
    induction hE with
    | nil => rfl
    | cons h _ ih =>
      obtain ⟨h1, h2⟩ := h
      rw [List.map_cons, List.map_cons, ih, h2, Arr.size, h1]
      simp [Nat.mul_div_cancel _ hld]
  have hre : E.mapM (reshapeCols ld) = .ok (E.map fun a => ⟨[a.data.length / ld, ld], a.data⟩) := by
    apply mapM_ok
    intro a ha
    unfold reshapeCols
    rw [if_pos ⟨by omega, hsize a ha⟩]
  have hdata : ((E.map fun a => (⟨[a.data.length / ld, ld], a.data⟩ : Arr ℝ)).flatMap (·.data)) = E.flatMap (·.data) := by
    rw [List.flatMap_map]
  refine ⟨⟨[((E.map fun a => (⟨[a.data.length / ld, ld], a.data⟩ : Arr ℝ)).map fun a => a.shape.getD 0 0).sum, ld],
    (E.map fun a => (⟨[a.data.length / ld, ld], a.data⟩ : Arr ℝ)).flatMap (·.data)⟩, ?_, ⟨?_, ?_⟩, ?_⟩
  · unfold retractBlock
    rw [hre, py_bind_ok, concatRows, if_neg (by simpa using hne), if_pos (by simp [Arr.numCols])]
  · simp only [List.map_map, ← hrows]; rfl
  · rw [hdata, ← hrows, List.length_flatMap]
    clear hre hdata hrows hne hE
    induction E with
    | nil => simp
    | cons a E ih =>
      simp only [List.map_cons, List.sum_cons, Nat.add_mul]
      rw [ih fun b hb => hsize b (by simp [hb])]
      congr 1
      exact (Nat.div_mul_cancel (Nat.dvd_of_mod_eq_zero (hsize a (by simp)))).symm
  · funext k c
    unfold arrMat stackedMatrix
    rw [hdata]

/-- Row `r` of the leaf arrays of one variable. -/
def leafRow (r : Nat) (D : List (Arr ℝ)) : List ℝ := D.flatMap fun a => slice a.data (r * a.shape.tail.prod) a.shape.tail.prod

/-- Velocity of the parameters of one variable. -/
noncomputable def velocity (c : VarClass ℝ) (E : List (Arr ℝ)) (d : List ℝ) : List ℝ :=
  List.ofFn (stackedMatrix c.paramDim c.localDim E *ᵥ vec d c.localDim)

theorem ofFn_smul_vec {d : List ℝ} {n : Nat} (h : d.length = n) (t : ℝ) : List.ofFn (t • vec d n) = d.map (t * ·) := by
  subst h
  apply List.ext_getElem (by simp)
  intro i h1 h2
  simp at h1
  simp [Spec.vec, h1]

theorem retract_hasDerivAt {c : VarClass ℝ} {x : Value ℝ} {E : List (Arr ℝ)} (hE : RetractDerivatives c x E) {d : List ℝ}
    (hd : d.length = c.localDim) (k : Nat) (hk : k < c.paramDim) :
    HasDerivAt (fun t : ℝ => (c.retract x (d.map (t * ·))).flatten.getD k 0) ((velocity c E d).getD k 0) 0 := by
  have h1 := hE.2
  have hl : HasDerivAt (fun t : ℝ => t • vec d c.localDim) (vec d c.localDim) 0 := by
    simpa using (hasDerivAt_id (0 : ℝ)).smul_const (vec d c.localDim)
  have h0 : (0 : Fin c.localDim → ℝ) = (fun t : ℝ => t • vec d c.localDim) 0 := by simp
  rw [h0] at h1
  have h2 := h1.comp_hasDerivAt (0 : ℝ) hl
  rw [hasDerivAt_pi] at h2
  have h3 := h2 ⟨k, hk⟩
  have he : (velocity c E d).getD k 0 = (mulVecL (stackedMatrix c.paramDim c.localDim E)) (vec d c.localDim) ⟨k, hk⟩ := by
    unfold velocity
    rw [getD_lt _ (by simpa using hk)]
    simp [mulVecL]
  have hf : (fun t : ℝ => (c.retract x (d.map (t * ·))).flatten.getD k 0) =
      fun t => Spec.vec (c.retract x (List.ofFn (t • Spec.vec d c.localDim))).flatten c.paramDim ⟨k, hk⟩ := by
    funext t
    rw [ofFn_smul_vec hd]
    rfl
  rw [he, hf]
  exact h3

/-- One variable: the blocks are computed, and the row times the velocity is the Jacobian times the delta. -/
theorem position_ok {rd : Nat} (hrd : 0 < rd) {c : VarClass ℝ} (hc : WellShaped c.default) {x : Value ℝ} (hx : IsValueOf c x)
    (hne : x.leaves ≠ []) (hld : 0 < c.localDim) {D E : List (Arr ℝ)}
    (hD : List.Forall₂ (fun leaf a => a.shape = rd :: leaf.shape ∧ a.data.length = a.size) x.leaves D)
    (hE : RetractDerivatives c x E) :
    ∃ M N J, residualBlock rd D = .ok M ∧ retractBlock c.localDim E = .ok N ∧ einsumMatMat M N = .ok J ∧
      IsMat J rd c.localDim ∧ ∀ r : Fin rd, (leafRow r D).length = c.paramDim ∧
      ∀ d : List ℝ, dotL (leafRow r D) (velocity c E d) = (arrMat J rd c.localDim *ᵥ vec d c.localDim) r := by
  have hpd : ((x.leaves.map (·.shape)).map List.prod).sum = c.paramDim := by
    rw [← isValueOf_length hc hx, flatten_length hx.2.2, List.map_map]
  have hDne : D ≠ [] := by rintro rfl; exact hne (List.length_eq_zero_iff.1 hD.length_eq)
  have hEne : E ≠ [] := by rintro rfl; exact hne (List.length_eq_zero_iff.1 hE.1.length_eq)
  obtain ⟨M, hM, hM1, hM2, hM3⟩ := residualBlock_ok hrd hDne (shapes := x.leaves.map (·.shape))
    (by rw [List.forall₂_map_left_iff]; exact hD)
  obtain ⟨N, hN, hN1, hN2⟩ := retractBlock_ok hld hEne (shapes := x.leaves.map (·.shape))
    (by rw [List.forall₂_map_left_iff]; exact hE.1)
  rw [hpd] at hM1 hM2 hM3 hN1 hN2
  obtain ⟨J, hJ, hJ1, hJ2⟩ := einsumMatMat_ok hM1 hN1
  refine ⟨M, N, J, hM, hN, hJ, hJ1, fun r => ⟨hM2 r r.2, fun d => ?_⟩⟩
  rw [hJ2, ← Matrix.mulVec_mulVec, hN2, dotL_eq (a := leafRow r D) (hM2 r r.2) (by simp [velocity])]
  rw [Matrix.mulVec, dotProduct]
  refine Finset.sum_congr rfl fun k _ => ?_
  congr 1
  · exact (hM3 r r.2 k k.2).symm
  · unfold velocity
    rw [getD_lt _ (by simp)]
    simp

/-- What belongs to one argument of the residual: the variable, its value, the Jacobians with respect to the leaves, the
Jacobians of the retraction. -/
structure Pos where
  v : Var
  x : Value ℝ
  D : List (Arr ℝ)
  E : List (Arr ℝ)

/-- The hypotheses about one position. -/
structure PosOK (C : Ty → VarClass ℝ) (rd : Nat) (q : Pos) : Prop where
  value : IsValueOf (C q.v.ty) q.x
  leaves : q.x.leaves ≠ []
  ld : 0 < (C q.v.ty).localDim
  D : List.Forall₂ (fun leaf a => a.shape = rd :: leaf.shape ∧ a.data.length = a.size) q.x.leaves q.D
  E : RetractDerivatives (C q.v.ty) q.x q.E
  zero : (C q.v.ty).retract q.x (List.replicate (C q.v.ty).localDim 0) = q.x

/-- Velocity of all parameters. -/
noncomputable def velocities (C : Ty → VarClass ℝ) : List Pos → List (List ℝ) → List ℝ
  | q :: L, d :: δs => velocity (C q.v.ty) q.E d ++ velocities C L δs
  | _, _ => []

variable {C : Ty → VarClass ℝ}

theorem positions_ok (hC : GoodClasses C) {rd : Nat} (hrd : 0 < rd) {L : List Pos} (hL : ∀ q ∈ L, PosOK C rd q) :
    ∃ Ms Ns Js, (L.map (·.D)).mapM (residualBlock rd) = .ok Ms ∧
      ((L.map fun q => (C q.v.ty).localDim).zip (L.map (·.E))).mapM (fun p => retractBlock p.1 p.2) = .ok Ns ∧
      (Ms.zip Ns).mapM (fun p => einsumMatMat p.1 p.2) = .ok Js ∧
      List.Forall₂ (fun v J => IsMat J rd (C v.ty).localDim) (L.map (·.v)) Js ∧
      ∀ r : Fin rd, (L.flatMap fun q => leafRow r q.D).length = paramTotal C (L.map (·.v)) ∧
        ∀ δs, List.Forall₂ (fun v d => d.length = (C v.ty).localDim) (L.map (·.v)) δs →
          dotL (L.flatMap fun q => leafRow r q.D) (velocities C L δs) =
            ((((L.map (·.v)).zip (Js.zip δs)).map fun p => arrMat p.2.1 rd (C p.1.ty).localDim *ᵥ Spec.vec p.2.2 (C p.1.ty).localDim).sum) r := by
  induction L with
  | nil =>
    refine ⟨[], [], [], rfl, rfl, rfl, .nil, fun r => ⟨rfl, fun δs h => ?_⟩⟩
    simp [dotL]
  | cons q L ih =>
    obtain ⟨Ms, Ns, Js, h1, h2, h3, h4, h5⟩ := ih fun q hq => hL q (by simp [hq])
    have hq := hL q (by simp)
    obtain ⟨M, N, J, g1, g2, g3, g4, g5⟩ := position_ok hrd (hC q.v.ty).1 hq.value hq.leaves hq.ld hq.D hq.E
    refine ⟨M :: Ms, N :: Ns, J :: Js, ?_, ?_, ?_, .cons g4 h4, fun r => ⟨?_, fun δs hδ => ?_⟩⟩
    · simp [h1, g1]
    · simp only [List.map_cons, List.zip_cons_cons, List.mapM_cons, g2, h2]; rfl
    · simp only [List.zip_cons_cons, List.mapM_cons, g3, h3]; rfl
    · simp only [List.flatMap_cons, List.length_append, (h5 r).1, (g5 r).1]
      simp [paramTotal]
    · rw [List.map_cons] at hδ
      cases hδ with
      | cons hd hδ =>
        simp only [List.flatMap_cons, velocities, List.map_cons, List.zip_cons_cons, List.sum_cons, Pi.add_apply]
        rw [dotL_append (by rw [(g5 r).1]; simp [velocity]), (g5 r).2, (h5 r).2 _ hδ]

theorem moved_ok (hC : GoodClasses C) {rd : Nat} {L : List Pos} (hL : ∀ q ∈ L, PosOK C rd q) {δs : List (List ℝ)}
    (hδ : List.Forall₂ (fun v d => d.length = (C v.ty).localDim) (L.map (·.v)) δs) :
    (∀ t, ((movedValues C (L.map (·.v)) (L.map (·.x)) δs t).flatMap Value.flatten).length = paramTotal C (L.map (·.v))) ∧
    (∀ t, unpackValues C (L.map (·.v)) ((movedValues C (L.map (·.v)) (L.map (·.x)) δs t).flatMap Value.flatten)
      = movedValues C (L.map (·.v)) (L.map (·.x)) δs t) ∧
    movedValues C (L.map (·.v)) (L.map (·.x)) δs 0 = L.map (·.x) ∧
    (velocities C L δs).length = paramTotal C (L.map (·.v)) ∧
    ∀ k < paramTotal C (L.map (·.v)), HasDerivAt
      (fun t => ((movedValues C (L.map (·.v)) (L.map (·.x)) δs t).flatMap Value.flatten).getD k 0)
      ((velocities C L δs).getD k 0) 0 := by
  induction L generalizing δs with
  | nil => cases hδ; refine ⟨fun t => ?_, fun t => ?_, rfl, rfl, fun k hk => ?_⟩ <;> simp [movedValues, paramTotal, unpackValues] at *
  | cons q L ih =>
    rw [List.map_cons] at hδ
    cases hδ with
    | @cons _ d _ δs hd hδ =>
      obtain ⟨h1, h2, h3, h4, h5⟩ := ih (fun q hq => hL q (by simp [hq])) hδ
      have hq := hL q (by simp)
      have hval : ∀ t : ℝ, IsValueOf (C q.v.ty) ((C q.v.ty).retract q.x (d.map (t * ·))) :=
        fun t => (hC q.v.ty).2 _ _ hq.value (by simpa using hd)
      have hlen : ∀ t : ℝ, ((C q.v.ty).retract q.x (d.map (t * ·))).flatten.length = (C q.v.ty).paramDim :=
        fun t => isValueOf_length (hC q.v.ty).1 (hval t)
      have hcons : ∀ t, movedValues C (q.v :: L.map (·.v)) (q.x :: L.map (·.x)) (d :: δs) t =
        (C q.v.ty).retract q.x (d.map (t * ·)) :: movedValues C (L.map (·.v)) (L.map (·.x)) δs t := fun t => rfl
      have htot : paramTotal C (q.v :: L.map (·.v)) = (C q.v.ty).paramDim + paramTotal C (L.map (·.v)) := by simp [paramTotal]
      have hvel : (velocity (C q.v.ty) q.E d).length = (C q.v.ty).paramDim := by simp [velocity]
      simp only [List.map_cons, hcons, List.flatMap_cons, htot, velocities]
      refine ⟨fun t => ?_, fun t => ?_, ?_, ?_, fun k hk => ?_⟩
      · rw [List.length_append, hlen, h1]
      · rw [unpackValues, List.take_append_of_le_length (hlen t).ge, List.take_of_length_le (hlen t).le, ← hlen t,
          List.drop_left, h2, unravel_flatten (hval t)]
      · rw [h3]
        congr 1
        have : d.map ((0 : ℝ) * ·) = List.replicate (C q.v.ty).localDim 0 := by
          rw [← hd]; simp [List.map_const']
        rw [this, hq.zero]
      · rw [List.length_append, h4, hvel]
      · by_cases hk' : k < (C q.v.ty).paramDim
        · rw [List.getD_append _ _ _ _ (by rw [hvel]; exact hk')]
          have : (fun t : ℝ => (((C q.v.ty).retract q.x (d.map (t * ·))).flatten ++
              (movedValues C (L.map (·.v)) (L.map (·.x)) δs t).flatMap Value.flatten).getD k 0) =
              fun t => ((C q.v.ty).retract q.x (d.map (t * ·))).flatten.getD k 0 := by
            funext t
            rw [List.getD_append _ _ _ _ (by rw [hlen]; exact hk')]
          rw [this]
          exact retract_hasDerivAt hq.E hd k hk'
        · rw [List.getD_append_right _ _ _ _ (by rw [hvel]; omega), hvel]
          have : (fun t : ℝ => (((C q.v.ty).retract q.x (d.map (t * ·))).flatten ++
              (movedValues C (L.map (·.v)) (L.map (·.x)) δs t).flatMap Value.flatten).getD k 0) =
              fun t => ((movedValues C (L.map (·.v)) (L.map (·.x)) δs t).flatMap Value.flatten).getD (k - (C q.v.ty).paramDim) 0 := by
            funext t
            rw [List.getD_append_right _ _ _ _ (by rw [hlen]; omega), hlen]
          rw [this]
          exact h5 _ (by omega)

/-- The positions of a factor. -/
theorem exists_positions {rd : Nat} {vars : List Var} {vals : List (Value ℝ)} {resJac retJac : List (List (Arr ℝ))}
    (hvals : List.Forall₂ (fun v x => IsValueOf (C v.ty) x ∧ x.leaves ≠ [] ∧ 0 < (C v.ty).localDim ∧
      (C v.ty).retract x (List.replicate (C v.ty).localDim 0) = x) vars vals)
    (hres : List.Forall₂ (fun v leaves => List.Forall₂ (fun leaf a => a.shape = rd :: leaf.shape ∧ a.data.length = a.size) v.leaves leaves)
      vals resJac)
    (hret : List.Forall₂ (fun p E => RetractDerivatives (C p.1.ty) p.2 E) (vars.zip vals) retJac) :
    ∃ L : List Pos, vars = L.map (·.v) ∧ vals = L.map (·.x) ∧ resJac = L.map (·.D) ∧ retJac = L.map (·.E) ∧ ∀ q ∈ L, PosOK C rd q := by
  induction hvals generalizing resJac retJac with
  | nil => cases hres; cases hret; exact ⟨[], rfl, rfl, rfl, rfl, by simp⟩
  | @cons v x vars vals h _ ih =>
    cases hres with
    | @cons _ D _ _ hD hres =>
      rw [List.zip_cons_cons] at hret
      cases hret with
      | @cons _ E _ _ hE hret =>
        obtain ⟨L, rfl, rfl, rfl, rfl, hL⟩ := ih hres hret
        refine ⟨⟨v, x, D, E⟩ :: L, rfl, rfl, rfl, rfl, ?_⟩
        intro q hq
        rcases List.mem_cons.1 hq with rfl | hq
        · exact ⟨h.1, h.2.1, h.2.2.1, hD, hE, h.2.2.2⟩
        · exact hL q hq

end Jaxfg
