/- The two unit quaternions of a rotation. -/
import Verif.Spec.Signs
import Verif.Lemmas.SymmetryPose
import Verif.Lemmas.Decrease

namespace Jaxfg
open Spec LieGroup

/-! ### Group operations -/

theorem so3Mul_neg_left (a b : List ℝ) (ha : ∃ w i j k, a = [w, i, j, k]) : so3Mul (a.map (-·)) b = (so3Mul a b).map (-·) := by
  obtain ⟨w, i, j, k, rfl⟩ := ha
  simp only [so3Mul, List.map_cons, List.map_nil, List.getD_cons_zero, List.getD_cons_succ, List.cons.injEq, and_true]
  refine ⟨?_, ?_, ?_, ?_⟩ <;> ring

theorem so3Mul_neg_right (a b : List ℝ) (hb : ∃ w i j k, b = [w, i, j, k]) : so3Mul a (b.map (-·)) = (so3Mul a b).map (-·) := by
  obtain ⟨w, i, j, k, rfl⟩ := hb
  simp only [so3Mul, List.map_cons, List.map_nil, List.getD_cons_zero, List.getD_cons_succ, List.cons.injEq, and_true]
  refine ⟨?_, ?_, ?_, ?_⟩ <;> ring

theorem so3Inv_neg (a : List ℝ) (ha : ∃ w i j k, a = [w, i, j, k]) : so3Inv (a.map (-·)) = (so3Inv a).map (-·) := by
  obtain ⟨w, i, j, k, rfl⟩ := ha
  simp [so3Inv]

theorem so3Matrix_neg (a : List ℝ) (ha : ∃ w i j k, a = [w, i, j, k]) : so3Matrix (a.map (-·)) = so3Matrix a := by
  obtain ⟨w, i, j, k, rfl⟩ := ha
  simp only [so3Matrix, List.map_cons, List.map_nil, List.getD_cons_zero, List.getD_cons_succ, List.cons.injEq, and_true]
  refine ⟨?_, ?_, ?_, ?_, ?_, ?_, ?_, ?_, ?_⟩ <;> ring

theorem atanFactor_neg {w n : ℝ} (hw : w ≠ 0) : atanFactor (-w) n = -atanFactor w n := by
  rw [atanFactor_eq hw, atanFactor_eq (neg_ne_zero.2 hw)]
  have : atanOver (n / -w) = atanOver (n / w) := by
    rw [div_neg]
    by_cases h : n / w = 0
    · rw [h, neg_zero]
    · rw [atanOver, atanOver, if_neg h, if_neg (neg_ne_zero.2 h), Real.arctan_neg, neg_div_neg_eq]
  rw [this, div_neg, neg_mul]

theorem so3Log_other {a : List ℝ} (ha : ∃ w i j k, a = [w, i, j, k]) (h0 : a.getD 0 0 ≠ 0) : so3Log (a.map (-·)) = so3Log a := by
  obtain ⟨w, i, j, k, rfl⟩ := ha
  have hw : w ≠ 0 := h0
  have hn : norm3 (-i) (-j) (-k) = norm3 i j k := by simp [norm3]
  simp only [so3Log, List.map_cons, List.map_nil, List.getD_cons_zero, List.getD_cons_succ, hn, atanFactor_neg hw, neg_mul_neg]

theorem valid_so3 {x : List ℝ} (h : LieType.Valid .so3 x) : ∃ w i j k, x = [w, i, j, k] := by
  obtain ⟨w, i, j, k, rfl, -⟩ := h
  exact ⟨w, i, j, k, rfl⟩

theorem valid_se3 {x : List ℝ} (h : LieType.Valid .se3 x) : (∃ w i j k, x.take 4 = [w, i, j, k]) ∧ (x.drop 4).length = 3 := by
  obtain ⟨w, i, j, k, a, b, c, rfl, -⟩ := h
  exact ⟨⟨w, i, j, k, rfl⟩, rfl⟩

theorem other_se3_take {x : List ℝ} (h : LieType.Valid .se3 x) : (LieType.other .se3 x).take 4 = (x.take 4).map (-·) := by
  obtain ⟨w, i, j, k, a, b, c, rfl, -⟩ := h; rfl

theorem other_se3_drop {x : List ℝ} (h : LieType.Valid .se3 x) : (LieType.other .se3 x).drop 4 = x.drop 4 := by
  obtain ⟨w, i, j, k, a, b, c, rfl, -⟩ := h; rfl

theorem other_valid {k : LieType} {x : List ℝ} (h : k.Valid x) : k.Valid (k.other x) := by
  cases k with
  | so2 => exact h
  | se2 => exact h
  | so3 =>
    obtain ⟨w, i, j, k, rfl, h⟩ := h
    exact ⟨-w, -i, -j, -k, rfl, by simpa using h⟩
  | se3 =>
    obtain ⟨w, i, j, k, a, b, c, rfl, h⟩ := h
    exact ⟨-w, -i, -j, -k, a, b, c, rfl, by simpa using h⟩

theorem other_other {k : LieType} {x : List ℝ} (h : k.Valid x) : k.other (k.other x) = x := by
  cases k with
  | so2 => rfl
  | se2 => rfl
  | so3 =>
    obtain ⟨w, i, j, k, rfl, h⟩ := h
    simp [LieType.other]
  | se3 =>
    obtain ⟨w, i, j, k, a, b, c, rfl, h⟩ := h
    simp [LieType.other]

theorem other_mul_left {k : LieType} {x y : List ℝ} (hx : k.Valid x) : k.ops.multiply (k.other x) y = k.other (k.ops.multiply x y) := by
  cases k with
  | so2 => rfl
  | se2 => rfl
  | so3 => exact so3Mul_neg_left x y (valid_so3 hx)
  | se3 =>
    show se3Mul (LieType.other .se3 x) y = LieType.other .se3 (se3Mul x y)
    unfold se3Mul
    rw [other_se3_take hx, other_se3_drop hx, so3Mul_neg_left _ _ (valid_se3 hx).1, so3Matrix_neg _ (valid_se3 hx).1]
    have hl : (so3Mul (x.take 4) (y.take 4)).length = 4 := rfl
    show _ = ((so3Mul (x.take 4) (y.take 4) ++ _).take 4).map (-·) ++ (so3Mul (x.take 4) (y.take 4) ++ _).drop 4
    rw [List.take_left' hl, List.drop_left' hl]

theorem other_mul_right {k : LieType} {x y : List ℝ} (hy : k.Valid y) : k.ops.multiply x (k.other y) = k.other (k.ops.multiply x y) := by
  cases k with
  | so2 => rfl
  | se2 => rfl
  | so3 => exact so3Mul_neg_right x y (valid_so3 hy)
  | se3 =>
    show se3Mul x (LieType.other .se3 y) = LieType.other .se3 (se3Mul x y)
    unfold se3Mul
    rw [other_se3_take hy, other_se3_drop hy, so3Mul_neg_right _ _ (valid_se3 hy).1]
    have hl : (so3Mul (x.take 4) (y.take 4)).length = 4 := rfl
    show _ = ((so3Mul (x.take 4) (y.take 4) ++ _).take 4).map (-·) ++ (so3Mul (x.take 4) (y.take 4) ++ _).drop 4
    rw [List.take_left' hl, List.drop_left' hl]

theorem other_inv {k : LieType} {x : List ℝ} (hx : k.Valid x) : k.ops.inverse (k.other x) = k.other (k.ops.inverse x) := by
  cases k with
  | so2 => rfl
  | se2 => rfl
  | so3 => exact so3Inv_neg x (valid_so3 hx)
  | se3 =>
    show se3Inv (LieType.other .se3 x) = LieType.other .se3 (se3Inv x)
    have h4 : ∃ w i j k, so3Inv (x.take 4) = [w, i, j, k] := ⟨_, _, _, _, rfl⟩
    unfold se3Inv
    rw [other_se3_take hx, other_se3_drop hx, so3Inv_neg _ (valid_se3 hx).1, so3Matrix_neg _ h4]
    have hl : (so3Inv (x.take 4)).length = 4 := rfl
    show _ = ((so3Inv (x.take 4) ++ _).take 4).map (-·) ++ (so3Inv (x.take 4) ++ _).drop 4
    rw [List.take_left' hl, List.drop_left' hl]

theorem other_log {k : LieType} {x : List ℝ} (hx : k.Valid x) (h : ¬ k.HalfTurn x) : k.ops.log (k.other x) = k.ops.log x := by
  cases k with
  | so2 => rfl
  | se2 => rfl
  | so3 => exact so3Log_other (valid_so3 hx) fun h0 => h ⟨Or.inl rfl, h0⟩
  | se3 =>
    show se3Log (LieType.other .se3 x) = se3Log x
    unfold se3Log
    rw [other_se3_take hx, other_se3_drop hx, so3Log_other (valid_se3 hx).1]
    intro h0
    refine h ⟨Or.inr rfl, ?_⟩
    obtain ⟨w, i, j, k, a, b, c, rfl, -⟩ := hx
    exact h0

theorem other_adjoint {k : LieType} {x : List ℝ} (hx : k.Valid x) : k.ops.adjoint (k.other x) = k.ops.adjoint x := by
  cases k with
  | so2 => rfl
  | se2 => rfl
  | so3 =>
    show (⟨[3, 3], so3Matrix (x.map (-·))⟩ : Arr ℝ) = ⟨[3, 3], so3Matrix x⟩
    rw [so3Matrix_neg _ (valid_so3 hx)]
  | se3 =>
    show (⟨[6, 6], se3Adjoint (LieType.other .se3 x)⟩ : Arr ℝ) = ⟨[6, 6], se3Adjoint x⟩
    unfold se3Adjoint
    rw [other_se3_take hx, other_se3_drop hx, so3Matrix_neg _ (valid_se3 hx).1]

theorem other_halfTurn {k : LieType} {x : List ℝ} (hx : k.Valid x) : k.HalfTurn (k.other x) ↔ k.HalfTurn x := by
  cases k with
  | so2 => rfl
  | se2 => rfl
  | so3 =>
    obtain ⟨w, i, j, k, rfl, -⟩ := hx
    simp [LieType.HalfTurn, LieType.other]
  | se3 =>
    obtain ⟨w, i, j, k, a, b, c, rfl, -⟩ := hx
    simp [LieType.HalfTurn, LieType.other]

theorem other_sqNorm {k : LieType} {x : List ℝ} (hx : k.Valid x) : sqNorm (k.other x) = sqNorm x := by
  cases k with
  | so2 => rfl
  | se2 => rfl
  | so3 =>
    obtain ⟨w, i, j, k, rfl, -⟩ := hx
    simp [sqNorm, LieType.other]
  | se3 =>
    obtain ⟨w, i, j, k, a, b, c, rfl, -⟩ := hx
    simp [sqNorm, LieType.other]

theorem other_motion {k : LieType} {x : List ℝ} (hx : k.Valid x) : k.motion (k.other x) = k.motion x := by
  cases k with
  | so2 => rfl
  | se2 => rfl
  | so3 =>
    obtain ⟨w, i, j, k, rfl, -⟩ := hx
    show quatMatrix (-w) (-i) (-j) (-k) = quatMatrix w i j k
    simp only [quatMatrix, neg_sq, neg_mul_neg]
  | se3 =>
    obtain ⟨w, i, j, k, a, b, c, rfl, -⟩ := hx
    show poseMatrix (-w) (-i) (-j) (-k) a b c = poseMatrix w i j k a b c
    simp only [poseMatrix, neg_sq, neg_mul_neg]

/-! ### With chosen signs -/

section
variable {k : LieType} {x y : List ℝ} {e e' : Bool}

theorem signed_valid (h : k.Valid x) : k.Valid (k.signed e x) := by
  unfold LieType.signed; split
  · exact other_valid h
  · exact h

theorem signed_mul (hx : k.Valid x) (hy : k.Valid y) :
    k.ops.multiply (k.signed e x) (k.signed e' y) = k.signed (xor e e') (k.ops.multiply x y) := by
  have hm := (lieLaws k).mul _ _ hx hy
  cases e <;> cases e' <;> simp [LieType.signed, other_mul_left hx, other_mul_right hy, other_other hm]

theorem signed_inv (hx : k.Valid x) : k.ops.inverse (k.signed e x) = k.signed e (k.ops.inverse x) := by
  cases e <;> simp [LieType.signed, other_inv hx]

theorem signed_log (hx : k.Valid x) (h : ¬ k.HalfTurn x) : k.ops.log (k.signed e x) = k.ops.log x := by
  cases e <;> simp [LieType.signed, other_log hx h]

theorem signed_adjoint (hx : k.Valid x) : k.ops.adjoint (k.signed e x) = k.ops.adjoint x := by
  cases e <;> simp [LieType.signed, other_adjoint hx]

theorem signed_sqNorm (hx : k.Valid x) : sqNorm (k.signed e x) = sqNorm x := by
  cases e <;> simp [LieType.signed, other_sqNorm hx]

theorem signed_rplus (hx : k.Valid x) (d : List ℝ) : k.ops.rplus (k.signed e x) d = k.signed e (k.ops.rplus x d) := by
  unfold LieGroup.rplus
  cases e <;> simp [LieType.signed, other_mul_left hx]

end

/-! ### Pose graphs -/

section
variable (F : Nat → FactorClass) (C : Ty → VarClass ℝ) (K : Ty → LieType)

/-- What it means to be a pose factor, without indices. -/
theorem measures_cases {f : Factor} {P : (Var → List ℝ) → Prop} (h : Measures F K f P) :
    (∃ cls v mu noise, F cls = priorFactorClass (K v.ty).ops ∧ (K v.ty).Valid mu ∧
      f = ⟨cls, [v], noise, ((K v.ty).ops.value mu).leaves⟩) ∨
    ∃ cls a b M noise, F cls = betweenFactorClass (K a.ty).ops ∧ (K a.ty).Valid M ∧ a.ty = b.ty ∧
      f = ⟨cls, [a, b], noise, ((K a.ty).ops.value M).leaves⟩ := by
  cases h with
  | prior cls v mu noise hF hmu => exact .inl ⟨cls, v, mu, noise, hF, hmu, rfl⟩
  | between cls a b M noise f hF hM hf =>
    obtain ⟨h1, -, h2⟩ := between_make_ok hf
    exact .inr ⟨cls, a, b, M, noise, hF, hM, h1, h2⟩

/-- With the other parameter vector of its measurement, a pose factor is a pose factor. -/
theorem resigned_measures {f : Factor} {P : (Var → List ℝ) → Prop} (e : Factor → Bool) (h : Measures F K f P) :
    ∃ P', Measures F K (resigned K e f) P' := by
  rcases measures_cases F K h with ⟨cls, v, mu, noise, hF, hmu, rfl⟩ | ⟨cls, a, b, M, noise, hF, hM, hab, rfl⟩
  · exact ⟨_, .prior cls v _ noise hF (signed_valid (e := e _) hmu)⟩
  · refine ⟨_, .between cls a b ((K a.ty).signed (e ⟨cls, [a, b], noise, ((K a.ty).ops.value M).leaves⟩) M) noise _ hF (signed_valid hM) ?_⟩
    unfold BetweenFactor.make
    simp [hab, pyAssert, LieGroup.value, resigned, factorType]

/-- The values with chosen parameter vectors. -/
noncomputable def signedValue (K : Ty → LieType) (s : Var → Bool) (v : Var) (x : Value ℝ) : Value ℝ :=
  (K v.ty).ops.value ((K v.ty).signed (s v) x.flatten)

/-- Choosing parameter vectors is a symmetry of pose graphs, away from half turns. -/
theorem resigned_isSymmetry (hK : ∀ t, C t = (K t).ops.varClass) (e : Factor → Bool) (s : Var → Bool) {fs : List Factor}
    (h : ∀ f ∈ fs, ∃ P, Measures F K f P) :
    IsSymmetryAway F C fs (resigned K e) (signedValue K s) (fun v x => ∃ p, (K v.ty).Valid p ∧ x = (K v.ty).ops.value p)
      (fun f val => (factorType K f).HalfTurn (poseMisfit K f fun v => (val v).flatten)) := by
  have rel := fun f hf => measures_cases F K (h f hf).choose_spec
  constructor
  case cls => intro f hf; rfl
  case vars => intro f hf; rfl
  case noise => intro f hf; rfl
  case shapes => intro f hf; simp [resigned]
  case value =>
    rintro v x - ⟨p, hp, rfl⟩
    rw [hK]
    refine (isValueOf_lie _).2 ⟨_, rfl, (lieLaws _).len _ ?_⟩
    rw [value_flatten]
    exact signed_valid hp
  case residual =>
    intro f hf val hval hN
    rcases rel f hf with ⟨cls, v, mu, noise, hF, hmu, rfl⟩ | ⟨cls, a, b, M, noise, hF, hM, hab, rfl⟩
    · obtain ⟨-, p, hp, hpv⟩ := hval v (by simp)
      have L := lieLaws (K v.ty)
      have hN : ¬ (K v.ty).HalfTurn ((K v.ty).ops.multiply ((K v.ty).ops.inverse (val v).flatten) mu) := hN
      rw [hpv, value_flatten] at hN
      simp only [resigned, factorType, List.headD_cons, signedValue, Factor.self, List.map_cons, List.map_nil, hF, hpv]
      show (K v.ty).ops.rminus ((K v.ty).ops.value _).flatten ((K v.ty).signed _ mu) = (K v.ty).ops.rminus ((K v.ty).ops.value _).flatten mu
      simp only [value_flatten]
      unfold LieGroup.rminus
      rw [signed_inv hp, signed_mul (L.inv _ hp) hmu, signed_log (L.mul _ _ (L.inv _ hp) hmu) hN]
    · obtain ⟨-, p, hp, hpv⟩ := hval a (by simp)
      obtain ⟨-, q, hq, hqv⟩ := hval b (by simp)
      rw [← hab] at hq hqv
      have L := lieLaws (K a.ty)
      have hN : ¬ (K a.ty).HalfTurn ((K a.ty).ops.multiply ((K a.ty).ops.inverse ((K a.ty).ops.multiply
        ((K a.ty).ops.inverse (val a).flatten) (val b).flatten)) M) := hN
      rw [hpv, hqv, value_flatten, value_flatten] at hN
      simp only [resigned, factorType, List.headD_cons, signedValue, Factor.self, List.map_cons, List.map_nil, hF, hpv, hqv, ← hab]
      show (K a.ty).ops.rminus ((K a.ty).ops.multiply ((K a.ty).ops.inverse ((K a.ty).ops.value _).flatten) ((K a.ty).ops.value _).flatten)
          ((K a.ty).signed _ M) =
        (K a.ty).ops.rminus ((K a.ty).ops.multiply ((K a.ty).ops.inverse ((K a.ty).ops.value _).flatten) ((K a.ty).ops.value _).flatten) M
      simp only [value_flatten]
      unfold LieGroup.rminus
      have hpq := L.mul _ _ (L.inv _ hp) hq
      rw [signed_inv hp, signed_mul (L.inv _ hp) hq, signed_inv hpq, signed_mul (L.inv _ hpq) hM,
        signed_log (L.mul _ _ (L.inv _ hpq) hM) hN]
  case jacobians =>
    intro f hf val hval
    rcases rel f hf with ⟨cls, v, mu, noise, hF, hmu, rfl⟩ | ⟨cls, a, b, M, noise, hF, hM, hab, rfl⟩
    · rw [hF]; rfl
    · obtain ⟨-, p, hp, hpv⟩ := hval a (by simp)
      obtain ⟨-, q, hq, hqv⟩ := hval b (by simp)
      rw [← hab] at hq hqv
      have L := lieLaws (K a.ty)
      have hpq := L.mul _ _ (L.inv _ hp) hq
      simp only [resigned, factorType, List.headD_cons, signedValue, Factor.self, List.map_cons, List.map_nil, hF, hpv, hqv, ← hab]
      show [(K a.ty).ops.adjoint ((K a.ty).ops.inverse ((K a.ty).ops.multiply ((K a.ty).ops.inverse ((K a.ty).ops.value _).flatten)
          ((K a.ty).ops.value _).flatten)), _] =
        [(K a.ty).ops.adjoint ((K a.ty).ops.inverse ((K a.ty).ops.multiply ((K a.ty).ops.inverse ((K a.ty).ops.value _).flatten)
          ((K a.ty).ops.value _).flatten)), _]
      simp only [value_flatten]
      rw [signed_inv hp, signed_mul (L.inv _ hp) hq, signed_inv hpq, signed_adjoint (L.inv _ hpq)]
  case retract =>
    rintro v x d - ⟨p, hp, rfl⟩ hd
    have L := lieLaws (K v.ty)
    rw [hK]
    have e : ∀ y, (K v.ty).ops.varClass.retract ((K v.ty).ops.value y) d = (K v.ty).ops.value ((K v.ty).ops.rplus y d) := by
      intro y
      show (K v.ty).ops.value ((K v.ty).ops.rplus ((K v.ty).ops.value y).flatten d) = _
      rw [value_flatten]
    simp only [signedValue, e, value_flatten]
    exact ⟨⟨_, L.mul _ _ hp (L.exp d), rfl⟩, by rw [signed_rplus hp]⟩

end

/-! ### Solving under observation -/

section
variable {F : Nat → FactorClass} {C : Ty → VarClass ℝ} {fs : List Factor} {φ : Factor → Factor} {τ : Var → Value ℝ → Value ℝ}
  {V : Var → Value ℝ → Prop} {N : Factor → (Var → Value ℝ) → Prop} {g g' : Graph} {L : LinSolver ℝ}

theorem okFin_map {ok : Assign ℝ → Prop} {a : Assign ℝ} : okFin ok (a.map Ext.fin) ↔ ok a :=
  ⟨fun ⟨_, h1, h2⟩ => by rw [assign_map_inj h1]; exact h2, fun h => ⟨a, rfl, h⟩⟩

theorem Lifts.watched {CE : Ty → VarClass Ext} {gE : GraphOps Ext} {g : GraphOps ℝ} (h : Lifts CE gE C g) (ok : Assign ℝ → Prop) :
    Lifts CE (Spec.watched (okFin ok) gE) C (Spec.watched ok g) where
  default := h.default
  localDim := h.localDim
  retract := h.retract
  layout := h.layout
  localLayout := h.localLayout
  cost a := by
    by_cases hok : ok a
    · simp only [Spec.watched, if_pos hok, if_pos (okFin_map.2 hok)]
      exact h.cost a
    · simp only [Spec.watched, if_neg hok, if_neg fun h => hok (okFin_map.1 h)]
      rfl
  jacobian := h.jacobian

theorem sqNorm_append (x y : List ℝ) : sqNorm (x ++ y) = sqNorm x + sqNorm y := by simp [sqNorm]

theorem sqNorm_flatMap {β : Type _} {l : List β} {f f' : β → List ℝ} (h : ∀ v ∈ l, sqNorm (f' v) = sqNorm (f v)) :
    sqNorm (l.flatMap f') = sqNorm (l.flatMap f) := by
  induction l with
  | nil => rfl
  | cons v l ih =>
    rw [List.flatMap_cons, List.flatMap_cons, sqNorm_append, sqNorm_append, h v (by simp), ih fun u hu => h u (by simp [hu])]

theorem symR_nrm (hV : ∀ v x, IsValueOf (C v.ty) x → V v x → sqNorm (τ v x).flatten = sqNorm x.flatten) {ws : List Var} {a a' : Assign ℝ}
    (h : SymR C ws τ V a a') : nrm a'.storage = nrm a.storage := by
  obtain ⟨val, h1, h2, h3⟩ := h
  unfold nrm
  rw [h1.1.storage, h2.1.storage, sqNorm_flatMap fun v hv => ?_]
  have hv := mem_grouped.1 hv
  exact hV v _ (h1.2 v hv) (h3 v hv)

/-- Without the gradient test, corresponding states whose values have equal norms pass the same tests. -/
theorem Sim.noGradient {C' : Ty → VarClass ℝ} {g g' : GraphOps ℝ} {L' : LinSolver ℝ} {R : Assign ℝ → Assign ℝ → Prop}
    {Q D : List ℝ → List ℝ → Prop} {J : Coo ℝ → Coo ℝ → Prop} (h : Sim C C' g g' L L' R Q D J) {t : Criteria ℝ}
    (ht : NoGradientTest t) (hR : ∀ {a a'}, R a a' → nrm a'.storage = nrm a.storage) : TestSim True C C' g g' R Q D t (InBounds t) := by
  intro p p' c d d' z z' conv hP hp hd hz hc
  obtain ⟨conv', h1, -⟩ := h.tests t trivial ⟨hp.iterations, hp.cost, hp.assignments, hp.residual, fun hf => hf.elim⟩ hd hz hc
  refine ⟨conv', h1, fun _ => ?_⟩
  have key : ∀ {C : Ty → VarClass ℝ} {g : GraphOps ℝ} {p : State ℝ} {d z : List ℝ} {conv : Bool}, InBounds t p →
      convergedTest C t p c d g.localLayout z = .ok conv → conv = (costTest t p c || parameterTest t p d) := by
    intro C g p d z conv hP hc
    unfold convergedTest gradientTest at hc
    simp only [py_bind_eq_ok, py_return_eq_ok] at hc
    obtain ⟨b, ⟨m, -, h2⟩, h3⟩ := hc
    have hb : b = false := by
      cases hx : List.zipWith (· - ·) p.assignments.storage m.storage with
      | nil => rw [hx] at h2; cases h2
      | cons x xs =>
        rw [hx] at h2
        cases h2
        rw [decide_eq_false_iff_not]
        rintro ⟨h4, -⟩
        have := ht.1; have := ht.2
        rcases hP with hP | hP
        · rw [hP] at h4; simp at h4; omega
        · omega
    rw [← h3, hb]
    simp
  have hP' : InBounds t p' := by unfold InBounds at hP ⊢; rwa [hp.iterations]
  rw [key hP hc, key hP' h1]
  unfold costTest parameterTest
  rw [hp.cost, h.dnrm hd, hR hp.assignments]

end

/-- Retraction by zero changes nothing. -/
theorem lie_zeroRetract {C : Ty → VarClass ℝ} {K : Ty → LieType} (hK : ∀ t, C t = (K t).ops.varClass) : ZeroRetract C := by
  intro t x d hx hd hl
  rw [hK] at hx hl ⊢
  obtain ⟨p, rfl, hp⟩ := (isValueOf_lie _).1 hx
  have hd : d = List.replicate (K t).ops.tangentDim 0 := List.eq_replicate_iff.2 ⟨hl, hd⟩
  show (K t).ops.value ((K t).ops.rplus ((K t).ops.value p).flatten d) = _
  rw [value_flatten, hd]
  congr 1
  cases hk : K t <;> rw [hk] at hp
  · obtain ⟨a, b, rfl⟩ := List.length_eq_two.1 hp
    simp [LieType.ops, LieGroup.rplus, LieGroup.so2, LieGroup.so2Mul]
  · match p, hp with
    | [a, b, c, d], _ =>
      simp [LieType.ops, LieGroup.rplus, LieGroup.se2, LieGroup.se2Mul, LieGroup.se2Exp, List.replicate]
  · match p, hp with
    | [a, b, c, d], _ =>
      simp [LieType.ops, LieGroup.rplus, LieGroup.so3, LieGroup.so3Mul, LieGroup.so3Exp, LieGroup.norm3, List.replicate]
  · match p, hp with
    | [a, b, c, d, e, f, g], _ =>
      show LieGroup.se3Mul [a, b, c, d, e, f, g] (LieGroup.se3Exp [0, 0, 0, 0, 0, 0]) = _
      rw [LieGroup.se3_exp_zero]
      simp [LieGroup.se3Mul, LieGroup.so3Mul, LieGroup.mul3]

theorem Spec.SaneGraph.watched {C : Ty → VarClass ℝ} {g : GraphOps ℝ} {ws : List Var} (h : SaneGraph C g ws) (ok : Assign ℝ → Prop) :
    SaneGraph C (Spec.watched ok g) ws := by
  have hc : ∀ {a c r}, (Spec.watched ok g).computeCost a = .ok (c, r) → g.computeCost a = .ok (c, r) := by
    intro a c r h
    simp only [Spec.watched] at h
    split at h
    · exact h
    · cases h
  exact ⟨h.classes, h.nodup, h.layout, h.localLayout, fun a c r h1 => h.cost a c r (hc h1),
    fun a a' c r A h1 h2 h3 h4 h5 h6 => h.jacobian a a' c r A h1 h2 h3 h4 (hc h5) h6⟩

end Jaxfg
