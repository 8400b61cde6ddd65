/- Solving a problem again after all measurements have been given another weight. -/
import Verif.Spec.Weight
import Verif.Lemmas.Symmetry
import Verif.Props.CgSolve

namespace Jaxfg
open Spec
open Ext (fin)

/-! ### Matrices -/

theorem scatterAdd_map (w : ℝ) (upd : List (Nat × ℝ)) : ∀ l : List ℝ,
    scatterAdd (l.map (w * ·)) (upd.map fun p => (p.1, w * p.2)) = (scatterAdd l upd).map (w * ·) := by
  induction upd with
  | nil => intro l; rfl
  | cons p upd ih =>
    intro l
    have : (l.map (w * ·)).modify p.1 (· + w * p.2) = (l.modify p.1 (· + p.2)).map (w * ·) := by
      apply List.ext_getElem
      · simp
      · intro i h1 h2
        simp only [List.getElem_modify, List.getElem_map]
        split
        · ring
        · rfl
    show scatterAdd ((l.map (w * ·)).modify p.1 (· + w * p.2)) _ = _
    rw [this, ih]
    rfl

theorem gather_smul (k : ℝ) (x : List ℝ) (idx : List Nat) : gather (x.map (k * ·)) idx = (gather x idx).map (k * ·) := by
  unfold gather
  rw [List.map_map]
  apply List.map_congr_left
  intro i _
  simp only [List.length_map, Function.comp, List.getD_eq_getElem?_getD, List.getElem?_map]
  cases x[min i (x.length - 1)]? <;> simp

theorem zip_map_snd {α : Type} (w : ℝ) (r : List α) (u : List ℝ) : r.zip (u.map (w * ·)) = (r.zip u).map fun p => (p.1, w * p.2) := by
  rw [List.zip_map_right]
  rfl

theorem replicate_map_zero (w : ℝ) (n : Nat) : (List.replicate n (0 : ℝ)).map (w * ·) = List.replicate n 0 := by simp

theorem weight_matmul (w : ℝ) (A : Coo ℝ) (x : List ℝ) : (weightCoo w A).matmul x = (A.matmul x).map (List.map (w * ·)) := by
  unfold Coo.matmul weightCoo
  simp only [List.length_map]
  by_cases h1 : x.length = A.shape.2
  · by_cases h2 : A.values.length ≠ A.cols.length
    · simp [h1, h2, pyAssert]; rfl
    · by_cases h3 : A.rows.length ≠ A.cols.length
      · simp [h1, h2, h3, pyAssert]; rfl
      · have e : List.zipWith (· * ·) (A.values.map (w * ·)) (gather x A.cols) =
            (List.zipWith (· * ·) A.values (gather x A.cols)).map (w * ·) := by
          rw [List.map_zipWith, List.zipWith_map_left]
          congr 1
          funext a b
          ring
        rw [if_neg h2, if_neg h3, if_neg h2, if_neg h3, e, zip_map_snd]
        have := scatterAdd_map w (A.rows.zip (List.zipWith (· * ·) A.values (gather x A.cols))) (List.replicate A.shape.1 0)
        rw [replicate_map_zero] at this
        simp only [h1, pyAssert]
        rw [this]
        rfl
  · simp [h1, pyAssert]; rfl

theorem matmul_smul (k : ℝ) (A : Coo ℝ) (x : List ℝ) : A.matmul (x.map (k * ·)) = (A.matmul x).map (List.map (k * ·)) := by
  unfold Coo.matmul
  simp only [List.length_map]
  by_cases h1 : x.length = A.shape.2
  · by_cases h2 : A.values.length ≠ A.cols.length
    · simp [h1, h2, pyAssert]; rfl
    · by_cases h3 : A.rows.length ≠ A.cols.length
      · simp [h1, h2, h3, pyAssert]; rfl
      · have e : List.zipWith (· * ·) A.values (gather (x.map (k * ·)) A.cols) =
            (List.zipWith (· * ·) A.values (gather x A.cols)).map (k * ·) := by
          rw [gather_smul, List.map_zipWith, List.zipWith_map_right]
          congr 1
          funext a b
          ring
        rw [if_neg h2, if_neg h3, if_neg h2, if_neg h3, e, zip_map_snd]
        have := scatterAdd_map k (A.rows.zip (List.zipWith (· * ·) A.values (gather x A.cols))) (List.replicate A.shape.1 0)
        rw [replicate_map_zero] at this
        simp only [h1, pyAssert]
        rw [this]
        rfl
  · simp [h1, pyAssert]; rfl

theorem weight_T (w : ℝ) (A : Coo ℝ) : (weightCoo w A).T = weightCoo w A.T := rfl

theorem map_map_mul (a b : ℝ) (x : List ℝ) : (x.map (b * ·)).map (a * ·) = x.map (a * b * ·) := by
  rw [List.map_map]
  apply List.map_congr_left
  intro y _
  simp only [Function.comp]
  ring

theorem map_mul_mul (a b : ℝ) (e : Py (List ℝ)) : (e.map (List.map (b * ·))).map (List.map (a * ·)) = e.map (List.map (a * b * ·)) := by
  cases e with
  | error e => rfl
  | ok x => exact congrArg Except.ok (map_map_mul a b x)

/-! ### Conjugate gradient -/

theorem vdot_smul (a b : ℝ) (x y : List ℝ) : vdot (x.map (a * ·)) (y.map (b * ·)) = a * b * vdot x y := by
  unfold vdot
  rw [List.zipWith_map]
  induction x generalizing y with
  | nil => simp
  | cons u x ih =>
    cases y with
    | nil => simp
    | cons v y =>
      simp only [List.zipWith_cons_cons, List.sum_cons, ih]
      ring

theorem weight_diagonals (w : ℝ) (A : Coo ℝ) (n : Nat) : ataDiagonals (weightCoo w A) n = (ataDiagonals A n).map (w ^ 2 * ·) := by
  unfold ataDiagonals weightCoo
  have e : (A.values.map (w * ·)).map (· ^ 2) = (A.values.map (· ^ 2)).map (w ^ 2 * ·) := by
    rw [List.map_map, List.map_map]
    apply List.map_congr_left
    intro y _
    simp only [Function.comp]
    ring
  simp only [e]
  rw [zip_map_snd]
  have := scatterAdd_map (w ^ 2) (A.cols.zip (A.values.map (· ^ 2))) (List.replicate n 0)
  rw [replicate_map_zero] at this
  exact this

theorem weight_ataFunction (w : ℝ) (A : Coo ℝ) (d : List ℝ) (l : ℝ) (x : List ℝ) :
    ataFunction (weightCoo w A) (d.map (w ^ 2 * ·)) l x = (ataFunction A d l x).map (List.map (w ^ 2 * ·)) := by
  unfold ataFunction
  rw [weight_T, weight_matmul]
  cases A.matmul x with
  | error e => rfl
  | ok y =>
    simp only [Except.map, py_bind_ok]
    rw [weight_matmul, matmul_smul, map_mul_mul]
    cases A.T.matmul y with
    | error e => rfl
    | ok z =>
      simp only [Except.map, py_bind_ok]
      show Except.ok _ = Except.ok _
      congr 1
      apply List.ext_getElem
      · simp
      · intro i h1 h2
        simp only [List.getElem_zipWith, List.getElem_map]
        ring

theorem weight_preconditioner {w : ℝ} (hw : w ≠ 0) (d x : List ℝ) :
    jacobiPreconditioner (d.map (w ^ 2 * ·)) (x.map (w ^ 2 * ·)) = jacobiPreconditioner d x := by
  unfold jacobiPreconditioner
  rw [List.zipWith_map]
  congr 1
  funext a b
  exact mul_div_mul_left _ _ (pow_ne_zero 2 hw)

/-- The same iteration with a residual that is `κ` times as large. -/
def cgWeight (κ : ℝ) (s : CgState) : CgState := ⟨s.x, s.r.map (κ * ·), κ * s.gamma, s.p⟩

theorem weight_cgBody {κ : ℝ} (hκ : κ ≠ 0) {op op' : List ℝ → Py (List ℝ)} {M M' : List ℝ → List ℝ}
    (ho : ∀ x, op' x = (op x).map (List.map (κ * ·))) (hM : ∀ x, M' (x.map (κ * ·)) = M x) (s : CgState) :
    cgBody op' M' (cgWeight κ s) = (cgBody op M s).map (cgWeight κ) := by
  unfold cgBody
  simp only [cgWeight, ho]
  cases op s.p with
  | error e => rfl
  | ok Ap =>
    simp only [Except.map, py_bind_ok]
    have h1 : vdot s.p (Ap.map (κ * ·)) = κ * vdot s.p Ap := by
      have := vdot_smul 1 κ s.p Ap
      simpa using this
    have h2 : κ * s.gamma / (κ * vdot s.p Ap) = s.gamma / vdot s.p Ap := mul_div_mul_left _ _ hκ
    rw [h1, h2]
    have h3 : List.zipWith (· - ·) (s.r.map (κ * ·)) ((Ap.map (κ * ·)).map (s.gamma / vdot s.p Ap * ·)) =
        (List.zipWith (· - ·) s.r (Ap.map (s.gamma / vdot s.p Ap * ·))).map (κ * ·) := by
      rw [List.map_zipWith, List.zipWith_map_left, List.map_map, List.zipWith_map_right, List.zipWith_map_right]
      apply List.ext_getElem
      · simp
      · intro i h1 h2
        simp only [List.getElem_zipWith, Function.comp]
        ring
    rw [h3, hM]
    have h4 : ∀ r z : List ℝ, vdot (r.map (κ * ·)) z = κ * vdot r z := by
      intro r z
      have := vdot_smul κ 1 r z
      simpa using this
    rw [h4, mul_div_mul_left _ _ hκ]
    rfl

theorem weight_cgLoop {κ : ℝ} (hκ : 0 < κ) {op op' : List ℝ → Py (List ℝ)} {M M' : List ℝ → List ℝ}
    (ho : ∀ x, op' x = (op x).map (List.map (κ * ·))) (hM : ∀ x, M' (x.map (κ * ·)) = M x) (t : ℝ) : ∀ (k : Nat) (s : CgState),
    cgLoop op' M' (κ ^ 2 * t) k (cgWeight κ s) = (cgLoop op M t k s).map (cgWeight κ) := by
  intro k
  induction k with
  | zero => intro s; rfl
  | succ k ih =>
    intro s
    have hc : κ ^ 2 * t < vdot (cgWeight κ s).r (cgWeight κ s).r ↔ t < vdot s.r s.r := by
      show κ ^ 2 * t < vdot (s.r.map (κ * ·)) (s.r.map (κ * ·)) ↔ _
      rw [vdot_smul, ← pow_two]
      exact mul_lt_mul_iff_right₀ (by positivity)
    unfold cgLoop
    by_cases h : t < vdot s.r s.r
    · rw [if_pos h, if_pos (hc.2 h), weight_cgBody hκ.ne' ho hM]
      cases cgBody op M s with
      | error e => rfl
      | ok s' => exact ih s'
    · rw [if_neg h, if_neg (fun h' => h (hc.1 h'))]
      rfl

theorem weight_cg {κ : ℝ} (hκ : 0 < κ) {op op' : List ℝ → Py (List ℝ)} {M M' : List ℝ → List ℝ}
    (ho : ∀ x, op' x = (op x).map (List.map (κ * ·))) (hM : ∀ x, M' (x.map (κ * ·)) = M x) (b x0 : List ℝ) (n : Nat) (tol : ℝ) :
    cg op' (b.map (κ * ·)) x0 n tol M' = cg op b x0 n tol M := by
  unfold cg
  rw [ho]
  cases op x0 with
  | error e => rfl
  | ok y =>
    simp only [Except.map, py_bind_ok]
    have h1 : List.zipWith (· - ·) (b.map (κ * ·)) (y.map (κ * ·)) = (List.zipWith (· - ·) b y).map (κ * ·) := by
      rw [List.zipWith_map, List.map_zipWith]
      congr 1
      funext u v
      ring
    have h2 : max (tol ^ 2 * vdot (b.map (κ * ·)) (b.map (κ * ·))) 0 = κ ^ 2 * max (tol ^ 2 * vdot b b) 0 := by
      rw [vdot_smul, mul_max_of_nonneg _ _ (by positivity), mul_zero]
      congr 1
      ring
    have h3 : ∀ r z : List ℝ, vdot (r.map (κ * ·)) z = κ * vdot r z := by
      intro r z
      have := vdot_smul κ 1 r z
      simpa using this
    rw [h1, h2, hM, h3]
    have := weight_cgLoop hκ ho hM (max (tol ^ 2 * vdot b b) 0) n
      ⟨x0, List.zipWith (· - ·) b y, vdot (List.zipWith (· - ·) b y) (M (List.zipWith (· - ·) b y)), M (List.zipWith (· - ·) b y)⟩
    unfold cgWeight at this
    rw [this]
    cases cgLoop op M (max (tol ^ 2 * vdot b b) 0) n _ <;> rfl

theorem weight_cgSolve {w : ℝ} (hw : 0 < w) (A : Coo ℝ) (b : List ℝ) (l tol : ℝ) :
    cgSolve (weightCoo w A) (b.map (w ^ 2 * ·)) l tol = cgSolve A b l tol := by
  unfold cgSolve
  simp only [List.length_map]
  rw [weight_diagonals]
  exact weight_cg (by positivity) (weight_ataFunction w A _ l) (weight_preconditioner hw.ne' _) b _ _ _

/-! ### Numbers -/

theorem infMul_scale {κ : ℝ} (hκ : 0 < κ) (x : ℝ) : Ext.infMul (κ * x) = Ext.infMul x := by
  have h : κ * x < 0 ↔ x < 0 := by
    rw [← not_le, ← not_le, mul_nonneg_iff_of_pos_left hκ]
  unfold Ext.infMul
  simp only [mul_pos_iff_of_pos_left hκ, h]

theorem div_scale {κ : ℝ} (hκ : 0 < κ) (x y : ℝ) : fin (κ * x) / fin (κ * y) = fin x / fin y := by
  by_cases hy : y = 0
  · rw [hy, mul_zero, fin_div_zero, fin_div_zero, infMul_scale hκ]
  · rw [fin_div hy, fin_div (mul_ne_zero hκ.ne' hy), mul_div_mul_left _ _ hκ.ne']

/-- The step to the Cauchy point does not change with the weight. -/
theorem cauchy_scale {κ : ℝ} (hκ : 0 < κ) (s p x : ℝ) :
    fin (κ ^ 2 * s) / fin (κ ^ 3 * p) * fin (κ * x) = fin s / fin p * fin x := by
  by_cases hp : p = 0
  · rw [hp, mul_zero, fin_div_zero, fin_div_zero, infMul_scale (by positivity)]
    cases h : Ext.infMul s with
    | fin y => unfold Ext.infMul at h; split at h <;> [cases h; (split at h <;> cases h)]
    | pinf => exact infMul_scale hκ x
    | ninf => exact congrArg Ext.neg (infMul_scale hκ x)
    | nan => rfl
  · rw [fin_div hp, fin_div (mul_ne_zero (by positivity) hp), fin_mul, fin_mul]
    congr 1
    field_simp

theorem sqNorm_smul (k : ℝ) (x : List ℝ) : sqNorm (x.map (k * ·)) = k ^ 2 * sqNorm x := by
  unfold sqNorm
  rw [List.map_map, ← List.sum_map_mul_left]
  congr 1
  apply List.map_congr_left
  intro y _
  simp only [Function.comp]
  ring

theorem weight_doglegStep {w : ℝ} (hw : 0 < w) (A : Coo ℝ) (b gn : List ℝ) (ρ : ℝ) :
    doglegStep ((weightCoo w A).map fin) ((b.map (w ^ 2 * ·)).map fin) (gn.map fin) (fin ρ) =
      doglegStep (A.map fin) (b.map fin) (gn.map fin) (fin ρ) := by
  unfold doglegStep
  rw [fin_matmul, fin_matmul, weight_matmul, matmul_smul, map_mul_mul]
  cases A.matmul b with
  | error e => rfl
  | ok y =>
    simp only [Except.map, py_bind_ok]
    have e : ((b.map (w ^ 2 * ·)).map fin).map (fun x => sumSq ((b.map (w ^ 2 * ·)).map fin) / sumSq ((y.map (w * w ^ 2 * ·)).map fin) * x) =
        (b.map fin).map (fun x => sumSq (b.map fin) / sumSq (y.map fin) * x) := by
      rw [fin_sumSq, fin_sumSq, fin_sumSq, fin_sumSq, sqNorm_smul, sqNorm_smul, List.map_map, List.map_map, List.map_map]
      apply List.map_congr_left
      intro x _
      simp only [Function.comp]
      have := cauchy_scale (κ := w ^ 2) (by positivity) (sqNorm b) (sqNorm y) x
      rw [← this]
      congr 4
      ring
    rw [e]
    simp only [List.length_map]

/-! ### Loops -/

section
variable {σ σ' : Type}

theorem whileLoop_log {done : σ → Bool} {done' : σ' → Bool} {step : σ → Py (σ × List (Msg Ext))} {step' : σ' → Py (σ' × List (Msg Ext))}
    {Rel : σ → σ' → Prop} {μ : Msg Ext → Msg Ext} (hd : ∀ {s s'}, Rel s s' → done' s' = done s)
    (hs : ∀ {s s' t l}, Rel s s' → done s = false → step s = .ok (t, l) → ∃ t', step' s' = .ok (t', l.map μ) ∧ Rel t t') :
    ∀ (fuel : Nat) {s s' t l}, Rel s s' → whileLoop done step fuel s = .ok (some (t, l)) →
      ∃ t', whileLoop done' step' fuel s' = .ok (some (t', l.map μ)) ∧ Rel t t' := by
  intro fuel
  induction fuel with
  | zero =>
    intro s s' t l hr h
    unfold whileLoop at h ⊢
    rw [hd hr]
    cases hds : done s with
    | true =>
      simp only [hds, if_true, Except.ok.injEq, Option.some.injEq, Prod.mk.injEq] at h
      obtain ⟨rfl, rfl⟩ := h
      exact ⟨s', rfl, hr⟩
    | false => simp [hds] at h
  | succ fuel ih =>
    intro s s' t l hr h
    unfold whileLoop at h ⊢
    rw [hd hr]
    cases hds : done s with
    | true =>
      simp only [hds, if_true, Except.ok.injEq, Option.some.injEq, Prod.mk.injEq] at h
      obtain ⟨rfl, rfl⟩ := h
      exact ⟨s', rfl, hr⟩
    | false =>
      simp only [hds, Bool.false_eq_true, if_false, py_bind_eq_ok, py_return_eq_ok] at h ⊢
      obtain ⟨⟨u, l1⟩, h1, r, h2, h3⟩ := h
      cases r with
      | none => simp at h3
      | some p =>
        obtain ⟨v, l2⟩ := p
        simp only [Option.map_some, Option.some.injEq, Prod.mk.injEq] at h3
        obtain ⟨rfl, rfl⟩ := h3
        obtain ⟨u', h4, h5⟩ := hs hr hds h1
        obtain ⟨t', h6, h7⟩ := ih h5 h2
        exact ⟨t', ⟨(u', l1.map μ), h4, _, h6, by rw [List.map_append]; rfl⟩, h7⟩

theorem forLoop_log {step : σ → Py (σ × List (Msg Ext))} {step' : σ' → Py (σ' × List (Msg Ext))} {μ : Msg Ext → Msg Ext}
    {Rel : σ → σ' → Prop} (hs : ∀ {s s' t l}, Rel s s' → step s = .ok (t, l) → ∃ t', step' s' = .ok (t', l.map μ) ∧ Rel t t') :
    ∀ (n : Nat) {s s' t l}, Rel s s' → forLoop step n s = .ok (t, l) → ∃ t', forLoop step' n s' = .ok (t', l.map μ) ∧ Rel t t' := by
  intro n
  induction n with
  | zero =>
    intro s s' t l hr h
    unfold forLoop at h ⊢
    simp only [Except.ok.injEq, Prod.mk.injEq] at h
    obtain ⟨rfl, rfl⟩ := h
    exact ⟨s', rfl, hr⟩
  | succ n ih =>
    intro s s' t l hr h
    unfold forLoop at h ⊢
    simp only [py_bind_eq_ok, py_return_eq_ok, Prod.mk.injEq] at h ⊢
    obtain ⟨⟨u, l1⟩, h1, ⟨v, l2⟩, h2, rfl, rfl⟩ := h
    obtain ⟨u', h4, h5⟩ := hs hr h1
    obtain ⟨t', h6, h7⟩ := ih h5 h2
    exact ⟨t', ⟨(u', l1.map μ), h4, (t', l2.map μ), h6, rfl, by rw [List.map_append]⟩, h7⟩

end

theorem hcbPrint_map (μ : Msg Ext → Msg Ext) (v : Bool) (m : Msg Ext) : (hcbPrint v m).map μ = hcbPrint v (μ m) := by
  cases v <;> rfl

/-! ### Steps -/

/-- The state that belongs to `p` after weighting. -/
noncomputable def weightState (w : ℝ) (p : State ℝ) : State ℝ := { p with cost := w ^ 2 * p.cost, residual := p.residual.map (w * ·) }

noncomputable def weightLM (w : ℝ) (p : LMState ℝ) : LMState ℝ := ⟨weightState w p.toState, p.lambd⟩

noncomputable def weightDogleg (w : ℝ) (p : DoglegState ℝ) : DoglegState ℝ := ⟨weightState w p.toState, p.radius⟩

/-- `g'` is `g` with weighted measurements; `ok` are assignments for the graphs, `Q` are residual vectors. -/
structure Weighted (C : Ty → VarClass ℝ) (w : ℝ) (g g' : GraphOps ℝ) (ok : Assign ℝ → Prop) (Q : List ℝ → Prop) : Prop where
  layout : g'.layout = g.layout
  localLayout : g'.localLayout = g.localLayout
  cost : ∀ {a c r}, ok a → g.computeCost a = .ok (c, r) → g'.computeCost a = .ok (w ^ 2 * c, r.map (w * ·)) ∧ Q r
  jac : ∀ {a r A}, ok a → Q r → g.jacobian a r = .ok A →
    g'.jacobian a (r.map (w * ·)) = .ok (weightCoo w A) ∧ CooWF A ∧ A.shape.2 = g.localLayout.dim
  retract : ∀ {a d b}, ok a → d.length = g.localLayout.dim → a.manifoldRetract C ⟨d, g.localLayout⟩ = .ok b → ok b

/-- With the settings `t'`, the tests of the weighted problem give the answers of `t`. -/
def WeightTests (C : Ty → VarClass ℝ) (w : ℝ) (ll : Layout) (ok : Assign ℝ → Prop) (t t' : Criteria ℝ) : Prop :=
  t'.maxIterations = t.maxIterations ∧ ∀ {p c d z conv}, InBounds t p → ok p.assignments → z.length = ll.dim →
    convergedTest C t p c d ll z = .ok conv → convergedTest C t' (weightState w p) (w ^ 2 * c) d ll (z.map (w ^ 2 * ·)) = .ok conv

section
variable {CE CE' : Ty → VarClass Ext} {gE gE' : GraphOps Ext} {C : Ty → VarClass ℝ} {g g' : GraphOps ℝ} {w : ℝ}
  {ok : Assign ℝ → Prop} {Q : List ℝ → Prop} {L : LinSolver ℝ}

theorem matmul_T_weight {A : Coo ℝ} {r z : List ℝ} (h : A.T.matmul r = .ok z) :
    (weightCoo w A).T.matmul (r.map (w * ·)) = .ok (z.map (w ^ 2 * ·)) := by
  rw [weight_T, weight_matmul, matmul_smul, h, map_mul_mul, ← pow_two]
  rfl

theorem map_neg_smul (k : ℝ) (z : List ℝ) : (z.map (k * ·)).map (fun x => -x) = (z.map fun x => -x).map (k * ·) := by
  rw [List.map_map, List.map_map]
  apply List.map_congr_left
  intro y _
  simp only [Function.comp]
  ring

theorem Weighted.gnStep (h : Weighted C w g g' ok Q) (hw : 0 < w) (hl : Lifts CE gE C g) (hl' : Lifts CE' gE' C g')
    {sE sE' : GaussNewton Ext} {s s' : GaussNewton ℝ} (hs : LiftsGN sE s) (hs' : LiftsGN sE' s') (hL : s'.linear = s.linear)
    (hv : s'.verbose = s.verbose) (hF : WeightFree s.linear) (hZ : SizedSolutions s.linear)
    (hT : WeightTests C w g.localLayout ok s.toCriteria s'.toCriteria) {p : State ℝ} (hP : InBounds s.toCriteria p)
    (hp : ok p.assignments) (hr : Q p.residual) {q : State Ext} {log : List (Msg Ext)}
    (hq : sE.step CE gE (p.map fin) = .ok (q, log)) :
    ∃ u : State ℝ, q = u.map fin ∧ sE'.step CE' gE' ((weightState w p).map fin) = .ok ((weightState w u).map fin, log.map (weightMsg (w ^ 2))) ∧
      ok u.assignments ∧ Q u.residual ∧ u.iterations = p.iterations + 1 ∧
      (u.done = false → (p.iterations : Int) < s.maxIterations - 1) := by
  obtain ⟨A, ATr, d, b, c, r, conv, h1, h2, h3, h4, h5, h6, rfl, rfl⟩ := (gnStep_fin hl hs).1 hq
  obtain ⟨j1, hA, hA2⟩ := h.jac hp hr h1
  have lz : ATr.length = A.shape.2 := (matmul_vec (Props.cooWF_T hA) h2).2.1
  have ld := hZ A _ _ _ _ hA (by rw [List.length_map, lz]) h3
  have hb := h.retract hp (by rw [ld, hA2]) h4
  obtain ⟨j5, hr'⟩ := h.cost hb h5
  have j6 := hT.2 hP hp (by rw [List.length_map, lz, hA2]) h6
  have hm : s'.maxIterations = s.maxIterations := hT.1
  refine ⟨_, rfl, (gnStep_fin hl' hs').2 ⟨weightCoo w A, _, d, b, _, _, conv, j1, matmul_T_weight h2, ?_, ?_, j5, ?_, ?_, ?_⟩, hb, hr', rfl, ?_⟩
  · rw [map_neg_smul, hL, hF w hw]; exact h3
  · rw [h.localLayout]; exact h4
  · rw [h.localLayout, map_neg_smul]; exact j6
  · rw [hm]; rfl
  · rw [hcbPrint_map, hv, hm]; rfl
  · intro hf
    simp only [Bool.or_eq_false_iff, decide_eq_false_iff_not] at hf
    have := hf.1
    omega

theorem Weighted.fixedStep (h : Weighted C w g g' ok Q) (hw : 0 < w) (hl : Lifts CE gE C g) (hl' : Lifts CE' gE' C g')
    {sE : FixedIteration Ext} (hs : LiftsSolver sE.linear L) (hF : WeightFree L) (hZ : SizedSolutions L) {p : State ℝ}
    (hp : ok p.assignments) (hr : Q p.residual) {q : State Ext} {log : List (Msg Ext)}
    (hq : sE.step CE gE (p.map fin) = .ok (q, log)) :
    ∃ u : State ℝ, q = u.map fin ∧ sE.step CE' gE' ((weightState w p).map fin) = .ok ((weightState w u).map fin, log.map (weightMsg (w ^ 2))) ∧
      ok u.assignments ∧ Q u.residual := by
  obtain ⟨A, ATr, d, b, c, r, h1, h2, h3, h4, h5, rfl, rfl⟩ := (fixedStep_fin hl hs).1 hq
  obtain ⟨j1, hA, hA2⟩ := h.jac hp hr h1
  have lz : ATr.length = A.shape.2 := (matmul_vec (Props.cooWF_T hA) h2).2.1
  have ld := hZ A _ _ _ _ hA (by rw [List.length_map, lz]) h3
  have hb := h.retract hp (by rw [ld, hA2]) h4
  obtain ⟨j5, hr'⟩ := h.cost hb h5
  refine ⟨_, rfl, (fixedStep_fin hl' hs).2 ⟨weightCoo w A, _, d, b, _, _, j1, matmul_T_weight h2, ?_, ?_, j5, ?_, ?_⟩, hb, hr'⟩
  · rw [map_neg_smul, hF w hw]; exact h3
  · rw [h.localLayout]; exact h4
  · rfl
  · rw [hcbPrint_map]; rfl

theorem predicted_weight (As r : List ℝ) : predicted (As.map (w * ·)) (r.map (w * ·)) = w ^ 2 * predicted As r := by
  unfold predicted
  rw [← sqNorm_smul, List.zipWith_map, List.map_zipWith]
  congr 2
  funext a b
  ring

theorem quality_weight (hw : 0 < w) (c c0 : ℝ) (As r : List ℝ) :
    fin (w ^ 2 * c - w ^ 2 * c0) / fin (predicted (As.map (w * ·)) (r.map (w * ·)) - w ^ 2 * c0) =
      fin (c - c0) / fin (predicted As r - c0) := by
  rw [predicted_weight, ← mul_sub, ← mul_sub]
  exact div_scale (by positivity) _ _

theorem Weighted.lmStep (h : Weighted C w g g' ok Q) (hw : 0 < w) (hl : Lifts CE gE C g) (hl' : Lifts CE' gE' C g')
    {sE sE' : LevenbergMarquardt Ext} {s : LevenbergMarquardt ℝ} {t' : Criteria ℝ} (hs : LiftsLM sE s)
    (hs' : LiftsLM sE' { s with toCriteria := t' }) (hf : s.lambdaFactor ≠ 0) (hF : WeightFree s.linear) (hZ : SizedSolutions s.linear)
    (hT : WeightTests C w g.localLayout ok s.toCriteria t') {p : LMState ℝ} (hP : InBounds s.toCriteria p.toState)
    (hp : ok p.assignments) (hr : Q p.residual) {q : LMState Ext} {log : List (Msg Ext)}
    (hq : sE.step CE gE (p.map fin) = .ok (q, log)) :
    ∃ u : LMState ℝ, q = u.map fin ∧ sE'.step CE' gE' ((weightLM w p).map fin) = .ok ((weightLM w u).map fin, log.map (weightMsg (w ^ 2))) ∧
      ok u.assignments ∧ Q u.residual ∧ u.iterations = p.iterations + 1 ∧
      (u.done = false → (p.iterations : Int) < s.maxIterations - 1) := by
  obtain ⟨A, ATr, d, b, c, r, As, acc, conv, h1, h2, h3, h4, h5, h6, h7, hacc, h8, rfl, rfl⟩ := (lmStep_fin hl hs hf).1 hq
  obtain ⟨j1, hA, hA2⟩ := h.jac hp hr h1
  have lz := (descent_ok hA h2).2.1
  have ld := hZ A _ _ _ _ hA lz h3
  have hb := h.retract hp (by rw [ld, hA2]) h4
  obtain ⟨j5, hr'⟩ := h.cost hb h5
  have j8 := hT.2 hP hp (by rw [lz, hA2]) h8
  have hm : t'.maxIterations = s.maxIterations := hT.1
  have j2 := matmul_T_weight (w := w) h2
  rw [← map_neg_smul] at j2
  refine ⟨_, rfl, (lmStep_fin hl' hs' hf).2 ⟨weightCoo w A, _, d, b, _, _, As.map (w * ·), acc, conv, j1, j2, ?_, ?_, j5, ?_, ?_, ?_, ?_, ?_, ?_⟩,
    ?_, hr', rfl, ?_⟩
  · show s.linear (weightCoo w A) (ATr.map (w ^ 2 * ·)) p.lambd p.iterations = _
    rw [hF w hw]; exact h3
  · rw [h.localLayout]; exact h4
  · rw [weight_matmul, h6]; rfl
  · simp [weightLM, weightState, h7]
  · rw [hacc]
    exact congrArg _ (quality_weight hw _ _ _ _).symm
  · rw [h.localLayout]; exact j8
  · congr 1
    unfold lmNextReal weightLM weightState nextLambda
    simp only [hm]
    cases acc <;> rfl
  · rw [hcbPrint_map, hm]; rfl
  · simp only [lmNextReal]; split
    · exact hb
    · exact hp
  · intro hf
    simp only [lmNextReal, Bool.or_eq_false_iff, decide_eq_false_iff_not] at hf
    have := hf.1
    omega

/-- Dogleg steps are finite if the linear solver maps zero to zero. -/
theorem dogleg_finite {A : Coo ℝ} (hA : CooWF A) (hL : ZeroAtZero L) {r b gn : List ℝ} (hb : A.T.matmul (r.map fun x => -x) = .ok b)
    {l : ℝ} {i : Nat} (hgn : L A b l i = .ok gn) {ρ : ℝ} (hρ : 0 < ρ) {dE : List Ext}
    (hd : doglegStep (A.map fin) (b.map fin) (gn.map fin) (fin ρ) = .ok dE) : ∃ d : List ℝ, dE = d.map fin ∧ d.length = A.shape.2 := by
  obtain ⟨hr, hbl, hbv⟩ := descent_ok hA hb
  have hlen : gn.length = A.shape.2 := by
    by_contra hne
    unfold doglegStep at hd
    simp only [py_bind_eq_ok] at hd
    obtain ⟨x, -, h2⟩ := hd
    rw [if_pos (by simpa [hbl] using hne)] at h2
    simp at h2
  by_cases hfit : nrm gn ≤ ρ
  · refine ⟨gn, ?_, hlen⟩
    rw [(doglegStep_fin hA hb hlen hρ).1 hfit] at hd
    exact (Except.ok.inj hd).symm
  · have hne : ¬ ∀ y ∈ b, y = 0 := by
      intro h0
      have := (mem_zero_vec hlen).1 (hL A b l i gn h0 hgn)
      apply hfit
      rw [nrm_eq hlen, this]
      simp [hρ.le]
    obtain ⟨Ab, m1, -, -⟩ := matmul_ok hA hbl
    have f1 := doglegStep_formula hA hb m1 hlen hρ (not_le.1 hfit) hne
    rw [hd] at f1
    refine ⟨_, Except.ok.inj f1, ?_⟩
    split <;> simp [hbl, hlen]

theorem Weighted.doglegStep (h : Weighted C w g g' ok Q) (hw : 0 < w) (hl : Lifts CE gE C g) (hl' : Lifts CE' gE' C g')
    {sE sE' : Dogleg Ext} {s : Dogleg ℝ} {t' : Criteria ℝ} (hs : LiftsDogleg sE s)
    (hs' : LiftsDogleg sE' { s with toCriteria := t' }) (hF : WeightFree s.linear) (hZ : ZeroAtZero s.linear)
    (hT : WeightTests C w g.localLayout ok s.toCriteria t') {p : DoglegState ℝ} (hP : InBounds s.toCriteria p.toState)
    (hp : ok p.assignments) (hr : Q p.residual) (hρ : 0 < p.radius) {q : DoglegState Ext} {log : List (Msg Ext)}
    (hq : sE.step CE gE (p.map fin) = .ok (q, log)) :
    ∃ u : DoglegState ℝ, q = u.map fin ∧
      sE'.step CE' gE' ((weightDogleg w p).map fin) = .ok ((weightDogleg w u).map fin, log.map (weightMsg (w ^ 2))) ∧
      ok u.assignments ∧ Q u.residual ∧ 0 < u.radius ∧ u.iterations = p.iterations + 1 ∧
      (u.done = false → (p.iterations : Int) < s.maxIterations - 1) := by
  have hfin : ∀ A ATb gn dE, g.jacobian p.assignments p.residual = .ok A → A.T.matmul (p.residual.map fun x => -x) = .ok ATb →
      s.linear A ATb 0 p.iterations = .ok gn → Jaxfg.doglegStep (A.map fin) (ATb.map fin) (gn.map fin) (fin p.radius) = .ok dE →
      ∃ d : List ℝ, dE = d.map fin := by
    intro A ATb gn dE h1 h2 h3 h4
    obtain ⟨-, hA, -⟩ := h.jac hp hr h1
    obtain ⟨d, hd, -⟩ := dogleg_finite hA hZ h2 h3 hρ h4
    exact ⟨d, hd⟩
  obtain ⟨A, ATb, gn, d, b, c, r, As, q, conv, h1, h2, h3, hdog, h4, h5, h6, h7, hqe, h8, rfl, rfl⟩ :=
    (doglegSolverStep_fin hl hs hfin).1 hq
  obtain ⟨j1, hA, hA2⟩ := h.jac hp hr h1
  have lz := (descent_ok hA h2).2.1
  have ld : d.length = A.shape.2 := by
    obtain ⟨d', e1, e2⟩ := dogleg_finite hA hZ h2 h3 hρ hdog
    rw [List.map_injective_iff.2 fin_injective e1, e2]
  have hb := h.retract hp (by rw [ld, hA2]) h4
  obtain ⟨j5, hr'⟩ := h.cost hb h5
  have j8 := hT.2 hP hp (by rw [lz, hA2]) h8
  have hm : t'.maxIterations = s.maxIterations := hT.1
  have j2 := matmul_T_weight (w := w) h2
  rw [← map_neg_smul] at j2
  have j3 : s.linear (weightCoo w A) (ATb.map (w ^ 2 * ·)) 0 p.iterations = .ok gn := by rw [hF w hw]; exact h3
  have jd := (weight_doglegStep hw A ATb gn p.radius).trans hdog
  have hfin' : ∀ A ATb gn dE, g'.jacobian (weightDogleg w p).assignments (weightDogleg w p).residual = .ok A →
      A.T.matmul ((weightDogleg w p).residual.map fun x => -x) = .ok ATb →
      s.linear A ATb 0 (weightDogleg w p).iterations = .ok gn →
      Jaxfg.doglegStep (A.map fin) (ATb.map fin) (gn.map fin) (fin (weightDogleg w p).radius) = .ok dE →
      ∃ d : List ℝ, dE = d.map fin := by
    intro B z gn dE k1 k2 k3 k4
    cases j1.symm.trans k1
    cases j2.symm.trans k2
    cases j3.symm.trans k3
    cases jd.symm.trans k4
    exact ⟨d, rfl⟩
  refine ⟨_, rfl, (doglegSolverStep_fin hl' hs' hfin').2 ⟨weightCoo w A, _, gn, d, b, _, _, As.map (w * ·), q, conv, j1, j2, j3, jd,
    ?_, j5, ?_, ?_, ?_, ?_, ?_, ?_⟩, ?_, hr', nextRadius_pos hρ, rfl, ?_⟩
  · rw [h.localLayout]; exact h4
  · rw [weight_matmul, h6]; rfl
  · simp [weightDogleg, weightState, h7]
  · rw [hqe]
    exact (quality_weight hw _ _ _ _).symm
  · rw [h.localLayout]; exact j8
  · congr 1
    unfold doglegNextReal weightDogleg weightState
    simp only [hm]
    cases Scal.le (fin s.stepQualityMin) q <;> rfl
  · rw [hcbPrint_map, hm]; rfl
  · simp only [doglegNextReal]; split
    · exact hb
    · exact hp
  · intro hf
    simp only [doglegNextReal, Bool.or_eq_false_iff, decide_eq_false_iff_not] at hf
    have := hf.1
    omega

/-! ### Whole calls -/

theorem baseSolve_log {σ : Type} {verbose : Bool} {base : σ → State Ext} {init init' : Assign Ext → Py σ}
    {step step' : σ → Py (σ × List (Msg Ext))} {μ : Msg Ext → Msg Ext} {a : Assign ℝ} {ok : Assign ℝ → Prop} {Rel : σ → σ → Prop}
    (hl : Lifts CE gE C g) (hl' : Lifts CE gE' C g') (hlay : g'.layout = g.layout)
    (hin : ∀ {b}, a.updateStorageLayout C g.layout = .ok b → ok b)
    (hinit : ∀ {b st}, ok b → init (b.map fin) = .ok st → ∃ st', init' (b.map fin) = .ok st' ∧ Rel st st')
    (hd : ∀ {s s'}, Rel s s' → (base s').done = (base s).done ∧ (base s').assignments = (base s).assignments ∧
      Msg.terminated (base s').iterations (base s').cost = μ (.terminated (base s).iterations (base s).cost))
    (hs : ∀ {s s' t l}, Rel s s' → (base s).done = false → step s = .ok (t, l) → ∃ t', step' s' = .ok (t', l.map μ) ∧ Rel t t')
    {fuel : Nat} {out : Assign Ext} {log : List (Msg Ext)}
    (h : baseSolve CE gE verbose base init step fuel (a.map fin) = .ok (some (out, log))) :
    baseSolve CE gE' verbose base init' step' fuel (a.map fin) = .ok (some (out, log.map μ)) := by
  obtain ⟨b, st, st', l, h1, h2, h3, h4, rfl⟩ := baseSolve_some.1 h
  have h1' := h1
  rw [hl.layout, hl.updateStorageLayout] at h1
  obtain ⟨b0, k1, rfl⟩ := py_map_eq_ok.1 h1
  obtain ⟨u, k3, hu⟩ := hinit (hin k1) h2
  obtain ⟨u', k4, hu'⟩ := whileLoop_log (done := fun s => (base s).done) (done' := fun s => (base s).done) (Rel := Rel) (μ := μ)
    (fun hr => (hd hr).1) hs fuel hu h3
  refine baseSolve_some.2 ⟨b0.map fin, u, u', _, ?_, k3, k4, ?_, ?_⟩
  · rw [hl'.layout, hlay, ← hl.layout]; exact h1'
  · rw [(hd hu').2.1]; exact h4
  · rw [List.map_append, hcbPrint_map, (hd hu').2.2]

variable {a : Assign ℝ} {fuel : Nat} {out : Assign Ext} {log : List (Msg Ext)}

theorem Weighted.gnSolve (h : Weighted C w g g' ok Q) (hw : 0 < w) (hl : Lifts CE gE C g) (hl' : Lifts CE gE' C g')
    {sE sE' : GaussNewton Ext} {s s' : GaussNewton ℝ} (hs : LiftsGN sE s) (hs' : LiftsGN sE' s') (hL : s'.linear = s.linear)
    (hv : s'.verbose = s.verbose) (hF : WeightFree s.linear) (hZ : SizedSolutions s.linear)
    (hT : WeightTests C w g.localLayout ok s.toCriteria s'.toCriteria)
    (hin : ∀ {b}, a.updateStorageLayout C g.layout = .ok b → ok b) (hq : sE.solve CE gE fuel (a.map fin) = .ok (some (out, log))) :
    sE'.solve CE gE' fuel (a.map fin) = .ok (some (out, log.map (weightMsg (w ^ 2)))) := by
  unfold GaussNewton.solve at hq ⊢
  rw [hs'.verbose, hv]; rw [hs.verbose] at hq
  refine baseSolve_log hl hl' h.layout (Rel := fun st st' => ∃ p : State ℝ, st = p.map fin ∧ st' = (weightState w p).map fin ∧
    ok p.assignments ∧ Q p.residual ∧ (p.done = false → InBounds s.toCriteria p)) hin ?_ ?_ ?_ hq
  · intro b st hb hi
    obtain ⟨c, r, hc, rfl⟩ := (initState_fin hl).1 hi
    obtain ⟨hc', hr⟩ := h.cost hb hc
    exact ⟨_, (initState_fin hl').2 ⟨_, _, hc', rfl⟩, _, rfl, rfl, hb, hr, fun _ => .inl rfl⟩
  · rintro _ _ ⟨p, rfl, rfl, -⟩
    exact ⟨rfl, rfl, rfl⟩
  · rintro _ _ t l ⟨p, rfl, rfl, h1, h2, h3⟩ hd hst
    obtain ⟨u, rfl, e1, e2, e3, e4, e5⟩ := h.gnStep hw hl hl' hs hs' hL hv hF hZ hT (h3 hd) h1 h2 hst
    exact ⟨_, e1, u, rfl, rfl, e2, e3, inBounds_next e4 e5⟩

theorem Weighted.lmSolve (h : Weighted C w g g' ok Q) (hw : 0 < w) (hl : Lifts CE gE C g) (hl' : Lifts CE gE' C g')
    {sE sE' : LevenbergMarquardt Ext} {s : LevenbergMarquardt ℝ} {t' : Criteria ℝ} (hs : LiftsLM sE s)
    (hs' : LiftsLM sE' { s with toCriteria := t' }) (hf : s.lambdaFactor ≠ 0) (hF : WeightFree s.linear) (hZ : SizedSolutions s.linear)
    (hT : WeightTests C w g.localLayout ok s.toCriteria t')
    (hin : ∀ {b}, a.updateStorageLayout C g.layout = .ok b → ok b) (hq : sE.solve CE gE fuel (a.map fin) = .ok (some (out, log))) :
    sE'.solve CE gE' fuel (a.map fin) = .ok (some (out, log.map (weightMsg (w ^ 2)))) := by
  unfold LevenbergMarquardt.solve at hq ⊢
  rw [hs'.verbose]; rw [hs.verbose] at hq
  refine baseSolve_log hl hl' h.layout (Rel := fun st st' => ∃ p : LMState ℝ, st = p.map fin ∧ st' = (weightLM w p).map fin ∧
    ok p.assignments ∧ Q p.residual ∧ (p.done = false → InBounds s.toCriteria p.toState)) hin ?_ ?_ ?_ hq
  · intro b st hb hi
    obtain ⟨c, r, hc, rfl⟩ := (lmInit_fin hl hs).1 hi
    obtain ⟨hc', hr⟩ := h.cost hb hc
    exact ⟨_, (lmInit_fin hl' hs').2 ⟨_, _, hc', rfl⟩, _, rfl, rfl, hb, hr, fun _ => .inl rfl⟩
  · rintro _ _ ⟨p, rfl, rfl, -⟩
    exact ⟨rfl, rfl, rfl⟩
  · rintro _ _ t l ⟨p, rfl, rfl, h1, h2, h3⟩ hd hst
    obtain ⟨u, rfl, e1, e2, e3, e4, e5⟩ := h.lmStep hw hl hl' hs hs' hf hF hZ hT (h3 hd) h1 h2 hst
    exact ⟨_, e1, u, rfl, rfl, e2, e3, inBounds_next (u := u.toState) (p := p.toState) e4 e5⟩

theorem Weighted.doglegSolve (h : Weighted C w g g' ok Q) (hw : 0 < w) (hl : Lifts CE gE C g) (hl' : Lifts CE gE' C g')
    {sE sE' : Dogleg Ext} {s : Dogleg ℝ} {t' : Criteria ℝ} (hs : LiftsDogleg sE s)
    (hs' : LiftsDogleg sE' { s with toCriteria := t' }) (hF : WeightFree s.linear) (hZ : ZeroAtZero s.linear) (hρ : 0 < s.radiusInitial)
    (hT : WeightTests C w g.localLayout ok s.toCriteria t')
    (hin : ∀ {b}, a.updateStorageLayout C g.layout = .ok b → ok b) (hq : sE.solve CE gE fuel (a.map fin) = .ok (some (out, log))) :
    sE'.solve CE gE' fuel (a.map fin) = .ok (some (out, log.map (weightMsg (w ^ 2)))) := by
  unfold Dogleg.solve at hq ⊢
  rw [hs'.verbose]; rw [hs.verbose] at hq
  refine baseSolve_log hl hl' h.layout (Rel := fun st st' => ∃ p : DoglegState ℝ, st = p.map fin ∧ st' = (weightDogleg w p).map fin ∧
    ok p.assignments ∧ Q p.residual ∧ 0 < p.radius ∧ (p.done = false → InBounds s.toCriteria p.toState)) hin ?_ ?_ ?_ hq
  · intro b st hb hi
    obtain ⟨c, r, hc, rfl⟩ := (doglegInit_fin hl hs).1 hi
    obtain ⟨hc', hr⟩ := h.cost hb hc
    exact ⟨_, (doglegInit_fin hl' hs').2 ⟨_, _, hc', rfl⟩, _, rfl, rfl, hb, hr, hρ, fun _ => .inl rfl⟩
  · rintro _ _ ⟨p, rfl, rfl, -⟩
    exact ⟨rfl, rfl, rfl⟩
  · rintro _ _ t l ⟨p, rfl, rfl, h1, h2, h2', h3⟩ hd hst
    obtain ⟨u, rfl, e1, e2, e3, e4, e5, e6⟩ := h.doglegStep hw hl hl' hs hs' hF hZ hT (h3 hd) h1 h2 h2' hst
    exact ⟨_, e1, u, rfl, rfl, e2, e3, e4, inBounds_next (u := u.toState) (p := p.toState) e5 e6⟩

theorem Weighted.fixedSolve (h : Weighted C w g g' ok Q) (hw : 0 < w) (hl : Lifts CE gE C g) (hl' : Lifts CE gE' C g')
    {sE : FixedIteration Ext} (hs : LiftsSolver sE.linear L) (hF : WeightFree L) (hZ : SizedSolutions L) (ha : ok a)
    (hq : sE.solve CE gE fuel (a.map fin) = .ok (some (out, log))) :
    sE.solve CE gE' fuel (a.map fin) = .ok (some (out, log.map (weightMsg (w ^ 2)))) := by
  obtain ⟨st, st', l, h1, h2, rfl, rfl⟩ := fixedSolve_some.1 hq
  obtain ⟨c, r, hc, rfl⟩ := (initState_fin hl).1 h1
  obtain ⟨hc', hr⟩ := h.cost ha hc
  let Rel : State Ext → State Ext → Prop := fun st st' => ∃ p : State ℝ, st = p.map fin ∧ st' = (weightState w p).map fin ∧
    ok p.assignments ∧ Q p.residual
  have h0 : Rel (State.map fin ⟨0, a, c, r, false⟩) (State.map fin ⟨0, a, w ^ 2 * c, r.map (w * ·), false⟩) := ⟨_, rfl, rfl, ha, hr⟩
  have hstep : ∀ {s s' t l}, Rel s s' → sE.step CE gE s = .ok (t, l) →
      ∃ t', sE.step CE gE' s' = .ok (t', l.map (weightMsg (w ^ 2))) ∧ Rel t t' := by
    rintro _ _ t l ⟨p, rfl, rfl, k1, k2⟩ hst
    obtain ⟨u, rfl, e1, e2, e3⟩ := h.fixedStep hw hl hl' hs hF hZ k1 k2 hst
    exact ⟨_, e1, u, rfl, rfl, e2, e3⟩
  have key : ∃ t', (if sE.unroll then (forLoop (sE.step CE gE') sE.iterations.toNat (State.map fin ⟨0, a, w ^ 2 * c, r.map (w * ·), false⟩)).map some
        else whileLoop (fun s => s.done) (sE.step CE gE') fuel (State.map fin ⟨0, a, w ^ 2 * c, r.map (w * ·), false⟩)) =
        .ok (some (t', l.map (weightMsg (w ^ 2)))) ∧ Rel st' t' := by
    cases hun : sE.unroll with
    | true =>
      simp only [hun, if_true] at h2 ⊢
      obtain ⟨x, k1, k2⟩ := py_map_eq_ok.1 h2
      cases k2
      obtain ⟨t', k3, k4⟩ := forLoop_log hstep _ h0 k1
      exact ⟨t', by rw [k3]; rfl, k4⟩
    | false =>
      simp only [hun, Bool.false_eq_true, if_false] at h2 ⊢
      refine whileLoop_log (Rel := Rel) ?_ (fun hr _ hst => hstep hr hst) fuel h0 h2
      rintro _ _ ⟨p, rfl, rfl, -⟩
      rfl
  obtain ⟨t', k1, p, rfl, rfl, k2⟩ := key
  refine fixedSolve_some.2 ⟨_, _, _, (initState_fin hl').2 ⟨_, _, hc', rfl⟩, k1, rfl, ?_⟩
  rw [List.map_append, hcbPrint_map]
  rfl

end

/-! ### Noise models -/

/-- The array times `w`. -/
noncomputable def weightArr (w : ℝ) (a : Arr ℝ) : Arr ℝ := ⟨a.shape, a.data.map (w * ·)⟩

theorem at2_weight (w : ℝ) (a : Arr ℝ) (k i j : Nat) : (weightArr w a).at2 k i j = w * a.at2 k i j := by
  unfold Arr.at2 weightArr
  simp only [List.getD_eq_getElem?_getD, List.getElem?_map]
  cases a.data[i * k + j]? <;> simp

theorem einsumMatVec_weight (w : ℝ) (W : Arr ℝ) (r : List ℝ) :
    einsumMatVec (weightArr w W) r = (einsumMatVec W r).map (List.map (w * ·)) := by
  unfold einsumMatVec
  have hs : (weightArr w W).shape = W.shape := rfl
  rw [hs]
  simp only [at2_weight]
  split
  · split
    · simp [Except.map, Function.comp_def, Finset.mul_sum, mul_assoc]
    · split
      · simp [Except.map, Function.comp_def, Finset.mul_sum, mul_assoc]
      · split
        · simp [Except.map, Function.comp_def, Finset.mul_sum, mul_assoc]
        · rfl
  · rfl

theorem of2_weight (w : ℝ) (m k : Nat) (f : Nat → Nat → ℝ) : weightArr w (.of2 m k f) = .of2 m k fun i c => w * f i c := by
  unfold weightArr Arr.of2
  simp [List.map_flatMap, Function.comp_def]

theorem einsumMatMat_weight (w : ℝ) (W J : Arr ℝ) :
    einsumMatMat (weightArr w W) J = (einsumMatMat W J).map (weightArr w) := by
  unfold einsumMatMat
  have hs : (weightArr w W).shape = W.shape := rfl
  rw [hs]
  simp only [at2_weight]
  split
  · split
    · simp only [Except.map, of2_weight, Finset.mul_sum, mul_assoc]
    · split
      · simp only [Except.map, of2_weight, Finset.mul_sum, mul_assoc]
      · split
        · simp only [Except.map, of2_weight, Finset.mul_sum, mul_assoc]
        · rfl
  · rfl

theorem scalar_weight (w : ℝ) (a : Arr ℝ) : (weightArr w a).scalar = a.scalar.map (w * ·) := by
  obtain ⟨sh, dt⟩ := a
  unfold Arr.scalar weightArr
  match sh, dt with
  | [], [] => rfl
  | [], [x] => rfl
  | [], _ :: _ :: _ => rfl
  | _ :: _, [] => rfl
  | _ :: _, _ :: _ => rfl

theorem norm2_weight {w : ℝ} (hw : 0 < w) (v : List ℝ) : norm2 (v.map (w * ·)) = w * norm2 v := by
  unfold norm2
  have : ((v.map (w * ·)).map fun x => x ^ 2).sum = w ^ 2 * (v.map fun x => x ^ 2).sum := by
    rw [List.map_map, ← List.sum_map_mul_left]
    congr 1
    apply List.map_congr_left
    intro y _
    simp only [Function.comp]
    ring
  rw [this, Real.sqrt_mul (by positivity), Real.sqrt_sq hw.le]

theorem whiten_weight {w : ℝ} (hw : 0 < w) (N : Noise) (r : List ℝ) :
    (weightNoise w N).whiten r = (N.whiten r).map (List.map (w * ·)) := by
  induction N with
  | gaussian W => exact einsumMatVec_weight w W r
  | diagonal d =>
    unfold weightNoise Noise.whiten
    by_cases h : [r.length] = d.shape
    · simp only [h, pyAssert]
      show Except.ok _ = Except.ok _
      congr 1
      rw [List.map_zipWith, List.zipWith_map_left]
      congr 1
      funext a b
      ring
    · simp [h, pyAssert]; rfl
  | huber N δ ih =>
    unfold weightNoise Noise.whiten
    rw [ih]
    have hs : Arr.scalar ⟨δ.shape, δ.data.map (w * ·)⟩ = δ.scalar.map (w * ·) := scalar_weight w δ
    rw [hs]
    cases N.whiten r with
    | error e => rfl
    | ok r' =>
      cases δ.scalar with
      | error e => rfl
      | ok d =>
        simp only [Except.map, py_bind_ok, py_pure, Except.ok.injEq]
        rw [norm2_weight hw, mul_div_mul_left _ _ hw.ne']
        by_cases h : norm2 r' < d
        · rw [if_pos h, if_pos (mul_lt_mul_of_pos_left h hw)]
        · rw [if_neg h, if_neg (fun h' => h (lt_of_mul_lt_mul_left h' hw.le)), List.map_map, List.map_map]
          apply List.map_congr_left
          intro y _
          simp only [Function.comp]
          ring

theorem whitenJacobian_weight {w : ℝ} (hw : 0 < w) (N : Noise) (J : Arr ℝ) (r : List ℝ) :
    (weightNoise w N).whitenJacobian J (r.map (w * ·)) = (N.whitenJacobian J r).map (weightArr w) := by
  induction N with
  | gaussian W => exact einsumMatMat_weight w W J
  | diagonal d =>
    unfold weightNoise Noise.whitenJacobian
    simp only [List.length_map]
    split
    · rename_i n k hJ
      by_cases h : ([r.length] = d.shape && d.shape = [n]) = true
      · simp only [h, pyAssert]
        show Except.ok _ = Except.ok _
        congr 1
        rw [of2_weight]
        congr 1
        funext i c
        simp only [List.getD_eq_getElem?_getD, List.getElem?_map]
        cases d.data[i]? <;> simp [mul_assoc]
      · simp only [h, pyAssert]; rfl
    · rfl
  | huber N δ ih =>
    unfold weightNoise Noise.whitenJacobian
    rw [ih]
    have hs : Arr.scalar ⟨δ.shape, δ.data.map (w * ·)⟩ = δ.scalar.map (w * ·) := scalar_weight w δ
    rw [hs]
    cases N.whitenJacobian J r with
    | error e => rfl
    | ok J' =>
      cases δ.scalar with
      | error e => rfl
      | ok d =>
        simp only [Except.map, py_bind_ok, py_pure, Except.ok.injEq]
        rw [norm2_weight hw, mul_div_mul_left _ _ hw.ne']
        by_cases h : norm2 r < d
        · rw [if_pos h, if_pos (mul_lt_mul_of_pos_left h hw)]
        · rw [if_neg h, if_neg (fun h' => h (lt_of_mul_lt_mul_left h' hw.le))]
          unfold weightArr
          simp only [Arr.mk.injEq, true_and]
          rw [List.map_map, List.map_map]
          apply List.map_congr_left
          intro y _
          simp only [Function.comp]
          ring

theorem weightNoise_shapes (w : ℝ) (N : Noise) :
    (weightNoise w N).treedef = N.treedef ∧ (weightNoise w N).leaves.map (·.shape) = N.leaves.map (·.shape) ∧
      noiseDim (weightNoise w N) = noiseDim N := by
  induction N with
  | gaussian W => exact ⟨rfl, rfl, rfl⟩
  | diagonal d => exact ⟨rfl, rfl, rfl⟩
  | huber N δ ih =>
    obtain ⟨h1, h2, h3⟩ := ih
    refine ⟨by simp only [weightNoise, Noise.treedef, h1], by simp only [weightNoise, Noise.leaves, List.map_append, h2]; rfl, ?_⟩
    exact h3

theorem weightNoise_wf {w : ℝ} (hw : 0 < w) {N : Noise} {n m : Nat} (h : NoiseWF N n m) : NoiseWF (weightNoise w N) n m := by
  induction N with
  | gaussian W => exact ⟨h.1, by simpa [weightNoise] using h.2⟩
  | diagonal d => exact ⟨⟨h.1.1, by simpa [weightNoise] using h.1.2⟩, h.2⟩
  | huber N δ ih =>
    obtain ⟨h1, d, rfl, hd⟩ := h
    exact ⟨ih h1, w * d, rfl, by positivity⟩

theorem weightNoise_inverse {w : ℝ} (hw : 0 < w) (N : Noise) : weightNoise w⁻¹ (weightNoise w N) = N := by
  have key : ∀ l : List ℝ, (l.map (w * ·)).map (w⁻¹ * ·) = l := by
    intro l
    rw [map_map_mul, inv_mul_cancel₀ hw.ne']
    simp
  induction N with
  | gaussian W => simp only [weightNoise, key]
  | diagonal d => simp only [weightNoise, key]
  | huber N δ ih => simp only [weightNoise, key, ih]

/-! ### Graphs -/

section
variable {F : Nat → FactorClass} {C : Ty → VarClass ℝ} {fs : List Factor} {w : ℝ}

theorem weightFactor_rdim (f : Factor) : rdim (weightFactor w f) = rdim f := (weightNoise_shapes w f.noise).2.2

theorem weightFactor_kind (f : Factor) : kind (weightFactor w f) = kind f := by
  obtain ⟨h1, h2, -⟩ := weightNoise_shapes w f.noise
  unfold kind
  simp only [weightFactor, h1, List.map_append, h2]

theorem weightFactor_inverse (hw : 0 < w) (f : Factor) : weightFactor w⁻¹ (weightFactor w f) = f := by
  unfold weightFactor
  simp only [weightNoise_inverse hw]

theorem weightFactor_wf (hw : 0 < w) {f : Factor} (hi : IgnoresNoise F f) (h : FactorWF F C f) : FactorWF F C (weightFactor w f) := by
  have hd := weightFactor_rdim (w := w) f
  refine ⟨by rw [hd]; exact h.pos, h.vars, by rw [hd]; exact weightNoise_wf hw h.noise, h.params, h.hint, fun vals hv => ?_, fun vals hv => ?_⟩
  · rw [hd, ← h.residual vals hv]
    exact congrArg List.length (hi _ vals).1
  · rw [hd]
    have := h.jacobians vals hv
    rw [← (hi (weightNoise w f.noise) vals).2] at this
    exact this

theorem mapM_weight {Js R : List (Arr ℝ)} {k k' : Arr ℝ → Py (Arr ℝ)} (hk : ∀ J, k' J = (k J).map (weightArr w))
    (h : Js.mapM k = .ok R) : Js.mapM k' = .ok (R.map (weightArr w)) := by
  induction Js generalizing R with
  | nil => cases h; rfl
  | cons J Js ih =>
    rw [List.mapM_cons] at h ⊢
    simp only [py_bind_eq_ok, py_return_eq_ok] at h ⊢
    obtain ⟨x, h1, xs, h2, rfl⟩ := h
    exact ⟨weightArr w x, by rw [hk, h1]; rfl, _, ih h2, rfl⟩

theorem groupValues_weight {R R' : Factor → List (Arr ℝ)} {G : List Factor} (h : ∀ f ∈ G, R' (weightFactor w f) = (R f).map (weightArr w)) :
    groupValues R' (G.map (weightFactor w)) = (groupValues R G).map (List.map (w * ·)) := by
  have hg : gVars (G.map (weightFactor w)) = gVars G := by
    cases G with
    | nil => rfl
    | cons f G => rfl
  unfold groupValues
  rw [hg, List.map_map]
  apply List.map_congr_left
  intro i _
  simp only [Function.comp]
  rw [List.flatMap_map, List.map_flatMap]
  refine List.flatMap_congr fun f hf => ?_
  rw [h f hf]
  simp only [List.getD_eq_getElem?_getD, List.getElem?_map]
  cases (R f)[i]? <;> rfl

theorem weighted_graph (hC : GoodClasses C) (hfs : ∀ f ∈ fs, FactorWF F C f) (hne : fs ≠ []) (hi : ∀ f ∈ fs, IgnoresNoise F f) (hw : 0 < w)
    {g g' : Graph} (hg : GraphOf F C fs g) (hg' : GraphOf F C (fs.map (weightFactor w)) g') :
    Weighted C w (g.ops F C) (g'.ops F C) (fun a => ∃ val, Stores C (Graph.variablesOf fs) val a)
      (fun r => ∃ u : Factor → List ℝ, (∀ f ∈ fs, (u f).length = rdim f) ∧ r = (evalOrder fs).flatMap u) := by
  have hs := variablesOf_spec fs
  have hvo : Graph.variablesOf (fs.map (weightFactor w)) = Graph.variablesOf fs := variablesOf_map fun _ _ => rfl
  have hll : g'.localLayout = g.localLayout := by rw [hg'.localLayout, hg.localLayout, hvo]
  have hlay : g'.layout = g.layout := by rw [hg'.layout, hg.layout, hvo]
  have hne' : fs.map (weightFactor w) ≠ [] := by simpa using hne
  have hWF' : ∀ f ∈ fs.map (weightFactor w), FactorWF F C f := by
    intro f hf
    obtain ⟨f0, h0, rfl⟩ := List.mem_map.1 hf
    exact weightFactor_wf hw (hi f0 h0) (hfs f0 h0)
  have hgr : groups kind (fs.map (weightFactor w)) = (groups kind fs).map (List.map (weightFactor w)) :=
    groups_map fun f _ => weightFactor_kind f
  have hev : evalOrder (fs.map (weightFactor w)) = (evalOrder fs).map (weightFactor w) := by
    unfold evalOrder
    rw [groupedBy_eq, groupedBy_eq, hgr, List.map_flatten]
  have hmap : ∀ u : Factor → List ℝ, (evalOrder (fs.map (weightFactor w))).flatMap (fun f => (u (weightFactor w⁻¹ f)).map (w * ·)) =
      ((evalOrder fs).flatMap u).map (w * ·) := by
    intro u
    rw [hev, List.flatMap_map, List.map_flatMap]
    exact List.flatMap_congr fun f hf => by rw [weightFactor_inverse hw]
  have hdim : g'.residualDim = g.residualDim := by
    rw [hg'.residualDim, hg.residualDim, hev, total_map (G := evalOrder fs) fun f _ => weightFactor_rdim f]
  have hold' : ∀ {a val}, Stores C (Graph.variablesOf fs) val a → Holds C (fs.map (weightFactor w)) (Graph.variablesOf fs) val a := by
    intro a val h
    refine h.holds fun v => ?_
    rw [← hvo, (variablesOf_spec _).2]
  constructor
  case layout => exact hlay
  case localLayout => exact hll
  case cost =>
    rintro a c r ⟨val, h1⟩ hc
    have k1 := h1.holds hs.2
    obtain ⟨u, hu⟩ := k1.whitened hC hfs
    have e1 := Props.cost_ok _ _ hC hne hfs hg k1 fun f hf => (hu f hf).1
    have e2 := Props.cost_ok _ _ hC hne' hWF' hg' (hold' h1) (w := fun f => (u (weightFactor w⁻¹ f)).map (w * ·)) (by
      intro f hf
      obtain ⟨f0, h0, rfl⟩ := List.mem_map.1 hf
      rw [weightFactor_inverse hw]
      have := (hu f0 h0).1
      unfold whitenedAt at this ⊢
      show (weightNoise w f0.noise).whiten ((F f0.cls).residual ⟨f0.vars.map (·.ty), weightNoise w f0.noise, f0.params⟩ (f0.vars.map val)) = _
      rw [(hi f0 h0 _ _).1, whiten_weight hw, this]
      rfl)
    have hc : g.computeCost F C a = .ok (c, r) := hc
    rw [e1] at hc
    cases hc
    constructor
    · show g'.computeCost F C a = _
      rw [e2, hmap u, List.map_map]
      congr 2
      rw [← List.sum_map_mul_left]
      congr 1
      apply List.map_congr_left
      intro f hf
      simp only [Function.comp]
      rw [weightFactor_inverse hw, sqNorm_smul]
    · exact ⟨u, fun f hf => (hu f hf).2, rfl⟩
  case jac =>
    rintro a r A ⟨val, h1⟩ ⟨u, hu, rfl⟩ hA
    have k1 := h1.holds hs.2
    obtain ⟨R, hR⟩ : ∃ R : Factor → List (Arr ℝ), ∀ f ∈ fs,
        ((F f.cls).jacobians f.self (f.vars.map val)).mapM (fun J => f.noise.whitenJacobian J (u f)) = .ok (R f) := by
      have : ∀ f : Factor, ∃ R', f ∈ fs →
          ((F f.cls).jacobians f.self (f.vars.map val)).mapM (fun J => f.noise.whitenJacobian J (u f)) = .ok R' :=
        fun f => by
          by_cases hf : f ∈ fs
          · obtain ⟨R', e1, -⟩ := whitenedJacobians_ok (hfs f hf) (k1.valuesFor hC hf) (hu f hf)
            exact ⟨R', fun _ => e1⟩
          · exact ⟨[], fun h => absurd h hf⟩
      choose R hR using this
      exact ⟨R, hR⟩
    obtain ⟨A0, e1, e2, e3, e4, -, -, -⟩ := jacobian_explicit hC hfs hne hg k1 hu hR
    obtain ⟨A1, f1, f2, -⟩ := jacobian_explicit hC hWF' hne' hg' (hold' h1) (ρ := fun f => (u (weightFactor w⁻¹ f)).map (w * ·))
      (R := fun f => (R (weightFactor w⁻¹ f)).map (weightArr w)) (by
      intro f hf
      obtain ⟨f0, h0, rfl⟩ := List.mem_map.1 hf
      rw [weightFactor_inverse hw, List.length_map, hu f0 h0, weightFactor_rdim]) (by
      intro f hf
      obtain ⟨f0, h0, rfl⟩ := List.mem_map.1 hf
      rw [weightFactor_inverse hw]
      refine mapM_weight (k := fun J => f0.noise.whitenJacobian J (u f0)) (fun J => whitenJacobian_weight hw _ _ _) ?_
      show ((F f0.cls).jacobians ⟨f0.vars.map (·.ty), weightNoise w f0.noise, f0.params⟩ (f0.vars.map val)).mapM _ = _
      rw [(hi f0 h0 _ _).2]
      exact hR f0 h0)
    have hA : g.computeWhitenedResidualJacobian F C a _ = .ok A := hA
    rw [e1] at hA
    cases hA
    rw [hmap u] at f1
    refine ⟨?_, e3, by rw [e4]; rfl⟩
    show g'.computeWhitenedResidualJacobian F C a _ = _
    rw [f1, e2, f2]
    have v1 : (groups kind (fs.map (weightFactor w))).map (groupValues fun f => (R (weightFactor w⁻¹ f)).map (weightArr w)) =
        ((groups kind fs).map (groupValues R)).map (List.map (List.map (w * ·))) := by
      rw [hgr, List.map_map, List.map_map]
      refine List.map_congr_left fun G hG => ?_
      exact groupValues_weight fun f hf => by rw [weightFactor_inverse hw]
    have v2 : g'.jacobianCoords = g.jacobianCoords := by
      rw [hg'.coords, hg.coords, hvo, hgr]
      rw [coordBlocks_map (fun G hG f hf => weightFactor_rdim f) fun G hG f hf => rfl]
    rw [v1, v2, hdim, hll]
    unfold weightCoo
    simp only [← List.map_flatten]
  case retract =>
    rintro a d b ⟨val, h1⟩ hd hb
    have hd' : d.length = g.localLayout.dim := hd
    obtain ⟨e, he⟩ : ∃ e, Rep C (Graph.variablesOf fs) true e ⟨d, g.localLayout⟩ := by
      rw [hg.localLayout] at hd' ⊢
      exact exists_rep (a := ⟨d, Layout.make C (Graph.variablesOf fs) true⟩) ⟨hs.1, rfl, hd'⟩
    obtain ⟨b1, k1, k2⟩ := h1.retract hC he
    have hb : a.manifoldRetract C ⟨d, g.localLayout⟩ = .ok b := hb
    rw [k1] at hb
    cases hb
    exact ⟨_, k2⟩

end

/-! ### Tests -/

theorem costTest_weight {w : ℝ} (hw : 0 < w) (t : Criteria ℝ) (p : State ℝ) (c : ℝ) :
    costTest t (weightState w p) (w ^ 2 * c) = costTest t p c := by
  have h2 : 0 < w ^ 2 := by positivity
  unfold costTest weightState
  simp only
  rw [← mul_sub, abs_mul, abs_of_pos h2, mul_div_mul_left _ _ h2.ne']
  simp [hw.ne']

section
variable {C : Ty → VarClass ℝ} {ws : List Var} {w : ℝ}

theorem weight_tests (hC : GoodClasses C) (hn : ws.Nodup) (hw : 0 < w) {t t' : Criteria ℝ} (ht : WeightedSettings C ws w t t') :
    WeightTests C w (Layout.make C ws true) (fun a => ∃ val, Stores C ws val a) t t' := by
  have h2 : 0 < w ^ 2 := by positivity
  refine ⟨by rcases ht with ⟨rfl, -⟩ | ⟨-, rfl⟩ <;> rfl, ?_⟩
  rintro p c d z conv hP ⟨val, ha⟩ hz hc
  have rep : ∀ z : List ℝ, z.length = (Layout.make C ws true).dim → IsAssignmentOf C ws ⟨z, Layout.make C ws true⟩ :=
    fun z hz => ⟨hn, rfl, hz⟩
  obtain ⟨e', he'⟩ := exists_rep (rep (z.map (w ^ 2 * ·)) (by rw [List.length_map, hz]))
  obtain ⟨b', k1, -⟩ := ha.retract hC he'
  unfold convergedTest gradientTest at hc ⊢
  simp only [py_bind_eq_ok, py_return_eq_ok] at hc ⊢
  obtain ⟨flag, ⟨b, j1, j2⟩, rfl⟩ := hc
  have l1 := (manifoldRetract_shape j1).2
  have l2 := (manifoldRetract_shape k1).2
  have hcost : costTest t' (weightState w p) (w ^ 2 * c) = costTest t p c := by
    rw [costTest_weight hw]
    rcases ht with ⟨rfl, -⟩ | ⟨-, rfl⟩ <;> rfl
  have hpar : parameterTest t' (weightState w p) d = parameterTest t p d := by
    rcases ht with ⟨rfl, -⟩ | ⟨-, rfl⟩ <;> rfl
  cases hx : List.zipWith (· - ·) p.assignments.storage b.storage with
  | nil => rw [hx] at j2; cases j2
  | cons x xs =>
    rw [hx] at j2
    cases hy : List.zipWith (· - ·) p.assignments.storage b'.storage with
    | nil =>
      have n1 : (List.zipWith (· - ·) p.assignments.storage b'.storage).length = 0 := by rw [hy]; rfl
      have n2 : (List.zipWith (· - ·) p.assignments.storage b.storage).length = xs.length + 1 := by rw [hx]; rfl
      rw [List.length_zipWith, l2] at n1
      rw [List.length_zipWith, l1] at n2
      omega
    | cons y ys =>
      refine ⟨flag, ⟨b', k1, ?_⟩, by rw [hcost, hpar]⟩
      show (match List.zipWith (· - ·) p.assignments.storage b'.storage with
        | [] => Except.error Err.value
        | x :: xs => Except.ok (decide (t'.gradientToleranceStartStep ≤ p.iterations ∧ xs.foldl max x < t'.gradientTolerance))) = _
      rw [hy]
      rw [← j2]
      refine congrArg Except.ok (decide_eq_decide.2 ?_)
      rcases ht with ⟨rfl, g1, g2⟩ | ⟨hE, rfl⟩
      · constructor <;>
        · rintro ⟨h4, -⟩
          rcases hP with hP | hP
          · rw [hP] at h4; simp at h4; omega
          · omega
      · refine and_congr Iff.rfl ?_
        rw [foldl_max_lt, foldl_max_lt, ← hx, ← hy]
        have hassign : IsAssignmentOf C ws p.assignments := ha.1.isAssignment
        have r1 := Props.retract_adds C hC ws p.assignments ⟨z, Layout.make C ws true⟩ hassign ha.1.flag (rep z hz) rfl hE
        have r2 := Props.retract_adds C hC ws p.assignments ⟨z.map (w ^ 2 * ·), Layout.make C ws true⟩ hassign ha.1.flag
          (rep _ (by rw [List.length_map, hz])) rfl hE
        rw [r1.1] at j1; cases j1
        rw [r2.1] at k1; cases k1
        have key : ∀ u v : List ℝ, u.length = v.length → List.zipWith (· - ·) u (List.zipWith (· + ·) u v) = v.map fun x => -x := by
          intro u v huv
          apply List.ext_getElem
          · simp [huv]
          · intro i h1 h2; simp
        rw [key _ _ r1.2, key _ _ r2.2]
        simp only [List.map_map, List.forall_mem_map, Function.comp]
        refine forall₂_congr fun a _ => ?_
        have e : -(w ^ 2 * a) = w ^ 2 * -a := by ring
        rw [e]
        exact mul_lt_mul_iff_right₀ h2

end

/-! ### The zero vector -/

theorem map_zero_of_all {l : List ℝ} (h : ∀ y ∈ l, y = 0) : l = l.map ((0 : ℝ) * ·) := by
  conv_lhs => rw [← List.map_id l]
  apply List.map_congr_left
  intro y hy
  simp [h y hy]

theorem matmul_zero {A : Coo ℝ} {x y : List ℝ} (hx : ∀ v ∈ x, v = 0) (h : A.matmul x = .ok y) : ∀ v ∈ y, v = 0 := by
  rw [map_zero_of_all hx, matmul_smul] at h
  obtain ⟨z, -, rfl⟩ := py_map_eq_ok.1 h
  simp

theorem cg_zeroAtZero (tol : Nat → ℝ) : ZeroAtZero (fun A b l i => cgSolve A b l (tol i)) := by
  intro A b l i x hb h
  have h : cgSolve A b l (tol i) = .ok x := h
  unfold cgSolve cg at h
  simp only [py_bind_eq_ok] at h
  obtain ⟨y, h1, s, h2, h3⟩ := h
  have hy : ∀ v ∈ y, v = 0 := by
    unfold ataFunction at h1
    simp only [py_bind_eq_ok, py_return_eq_ok] at h1
    obtain ⟨u, k1, v, k2, rfl⟩ := h1
    have e1 := matmul_zero (by simp) k1
    have e2 := matmul_zero e1 k2
    intro t ht
    obtain ⟨j, hj, rfl⟩ := List.getElem_of_mem ht
    simp only [List.getElem_zipWith, List.getElem_replicate, mul_zero, add_zero]
    exact e2 _ (List.getElem_mem _)
  have hr : ∀ v ∈ List.zipWith (· - ·) b y, v = 0 := by
    intro t ht
    obtain ⟨j, hj, rfl⟩ := List.getElem_of_mem ht
    simp only [List.getElem_zipWith]
    rw [hb _ (List.getElem_mem _), hy _ (List.getElem_mem _), sub_zero]
  have hdot : vdot (List.zipWith (· - ·) b y) (List.zipWith (· - ·) b y) = 0 := by
    rw [map_zero_of_all hr, vdot_smul]; simp
  have hloop : ∀ k s0, s0.r = List.zipWith (· - ·) b y → ∀ t : ℝ, 0 ≤ t → ∀ op M s, cgLoop op M t k s0 = .ok s → s = s0 := by
    intro k s0 e t ht op M s hs
    cases k with
    | zero => cases hs; rfl
    | succ k =>
      unfold cgLoop at hs
      rw [e, hdot, if_neg (not_lt.2 ht)] at hs
      cases hs; rfl
  have := hloop _ _ rfl _ (le_max_right _ _) _ _ _ h2
  subst this
  cases h3
  simp

/-! ### Other units -/

section
open Matrix hiding vec
open Spec

theorem entries_scale (s : Nat → ℝ) (A : Coo ℝ) :
    entries (scaleColumns s A) = (entries A).map fun e => (e.1, e.2.1, e.2.2 * s e.2.1) := by
  unfold entries scaleColumns
  apply List.ext_getElem
  · simp [min_comm]
  · intro i h1 h2; simp

theorem cooMatrix_scale (s : Nat → ℝ) (A : Coo ℝ) (m n : Nat) :
    cooMatrix (scaleColumns s A) m n = cooMatrix A m n * diagonal fun j : Fin n => s j := by
  funext i j
  rw [mul_diagonal]
  unfold cooMatrix
  rw [entries_scale, List.filter_map, List.map_map, ← List.sum_map_mul_right]
  refine congrArg List.sum (List.map_congr_left fun e he => ?_)
  have := (List.mem_filter.1 he).2
  simp only [Function.comp, decide_eq_true_eq] at this ⊢
  rw [this.2]

theorem colSquares_scale (s : Nat → ℝ) (A : Coo ℝ) (n : Nat) (j : Fin n) :
    colSquares (scaleColumns s A) n j = s j ^ 2 * colSquares A n j := by
  unfold colSquares
  rw [entries_scale, List.filter_map, List.map_map, ← List.sum_map_mul_left]
  refine congrArg List.sum (List.map_congr_left fun e he => ?_)
  have := (List.mem_filter.1 he).2
  simp only [Function.comp, decide_eq_true_eq] at this ⊢
  rw [this]; ring

theorem cooWF_scale {s : Nat → ℝ} {A : Coo ℝ} (h : CooWF A) : CooWF (scaleColumns s A) := by
  obtain ⟨h1, h2, h3, h4⟩ := h
  refine ⟨?_, ?_, h3, h4⟩ <;> simp [scaleColumns, h1, h2]

theorem rank_scale {s : Nat → ℝ} (hs : ∀ j, s j ≠ 0) {A : Coo ℝ}
    (h : ∀ v, cooMatrix A A.shape.1 A.shape.2 *ᵥ v = 0 → v = 0) :
    ∀ v, cooMatrix (scaleColumns s A) A.shape.1 A.shape.2 *ᵥ v = 0 → v = 0 := by
  intro v hv
  rw [cooMatrix_scale, ← mulVec_mulVec] at hv
  have := h _ hv
  funext j
  have hj := congrFun this j
  rw [mulVec_diagonal] at hj
  simpa [hs] using hj

/-- Without a tolerance, the solution of conjugate gradients solves the equation. -/
theorem cg_equation {A : Coo ℝ} (hA : CooWF A) {b : List ℝ} (hb : b.length = A.shape.2) {l : ℝ} (hl : 0 ≤ l)
    (hr : ∀ v, cooMatrix A A.shape.1 A.shape.2 *ᵥ v = 0 → v = 0) :
    ∃ x, cgSolve A b l 0 = .ok x ∧ x.length = A.shape.2 ∧ cgMatrix A l *ᵥ vec x A.shape.2 = vec b A.shape.2 := by
  obtain ⟨x, h1, h2, h3⟩ := cg_ok (opsMatch hA l) (cgMatrix_symm A l) (cgPreconditioner_symm A) (cgMatrix_pd A hl hr)
    (cgPreconditioner_pd A hr) hb 0
  refine ⟨x, ?_, h2, ?_⟩
  · unfold cgSolve
    simp only [hb, List.length_replicate]
    exact h1
  · have h0 : (vec b A.shape.2 - cgMatrix A l *ᵥ vec x A.shape.2) = 0 := by
      apply dotProduct_self_eq_zero.1
      refine le_antisymm ?_ (Finset.sum_nonneg fun i _ => mul_self_nonneg _)
      simpa using h3
    exact (sub_eq_zero.1 h0).symm

theorem cg_units {A : Coo ℝ} (hA : CooWF A) {b : List ℝ} (hb : b.length = A.shape.2) {l : ℝ} (hl : 0 ≤ l)
    (hr : ∀ v, cooMatrix A A.shape.1 A.shape.2 *ᵥ v = 0 → v = 0) {s : Nat → ℝ} (hs : ∀ j, s j ≠ 0) :
    ∃ x, cgSolve A b l 0 = .ok x ∧ x.length = A.shape.2 ∧
      cgSolve (scaleColumns s A) (b.mapIdx fun j v => v * s j) l 0 = .ok (x.mapIdx fun j v => v / s j) := by
  obtain ⟨x, h1, h2, h3⟩ := cg_equation hA hb hl hr
  have hb' : (b.mapIdx fun j v => v * s j).length = (scaleColumns s A).shape.2 := by rw [List.length_mapIdx]; exact hb
  obtain ⟨y, k1, k2, k3⟩ := cg_equation (cooWF_scale (s := s) hA) hb' hl (rank_scale hs hr)
  refine ⟨x, h1, h2, ?_⟩
  rw [k1]
  have k2 : y.length = A.shape.2 := k2
  set n := A.shape.2 with hn
  let D : Matrix (Fin n) (Fin n) ℝ := diagonal fun j => s j
  have e1 : (cgMatrix (scaleColumns s A) l : Matrix (Fin n) (Fin n) ℝ) = D * cgMatrix A l * D := by
    have e2 : (diagonal (colSquares (scaleColumns s A) n) : Matrix (Fin n) (Fin n) ℝ) = D * diagonal (colSquares A n) * D := by
      rw [diagonal_mul_diagonal, diagonal_mul_diagonal]
      congr 1; funext j; rw [colSquares_scale]; ring
    show (cooMatrix (scaleColumns s A) A.shape.1 n)ᵀ * cooMatrix (scaleColumns s A) A.shape.1 n + l • diagonal (colSquares (scaleColumns s A) n) = _
    rw [e2, cooMatrix_scale, transpose_mul, diagonal_transpose]
    unfold cgMatrix
    rw [Matrix.mul_add, Matrix.add_mul, Matrix.mul_smul, Matrix.smul_mul]
    simp only [Matrix.mul_assoc]
    rfl
  have e3 : vec (b.mapIdx fun j v => v * s j) n = D *ᵥ vec b n := by
    funext j
    rw [mulVec_diagonal]
    unfold vec
    rw [List.getD_eq_getElem _ _ (by simp [hb]), List.getD_eq_getElem _ _ (by rw [hb]; exact j.2)]
    simp [mul_comm]
  have k3 : (cgMatrix (scaleColumns s A) l : Matrix (Fin n) (Fin n) ℝ) *ᵥ vec y n = vec (b.mapIdx fun j v => v * s j) n := k3
  have k3 : (D * cgMatrix A l * D) *ᵥ vec y n = D *ᵥ vec b n := by rw [← e1, ← e3]; exact k3
  rw [← mulVec_mulVec, ← mulVec_mulVec] at k3
  have k4 : cgMatrix A l *ᵥ (D *ᵥ vec y n) = vec b n := by
    funext j
    have := congrFun k3 j
    rw [mulVec_diagonal, mulVec_diagonal] at this
    exact mul_left_cancel₀ (hs j) this
  have k5 : D *ᵥ vec y n = vec x n := by
    by_contra hne
    have hp := cgMatrix_pd A hl hr (D *ᵥ vec y n - vec x n) (sub_ne_zero.2 hne)
    rw [mulVec_sub, k4, h3, sub_self, dotProduct_zero] at hp
    exact lt_irrefl _ hp
  congr 1
  apply List.ext_getElem
  · simp [k2, h2]
  · intro i i1 i2
    have hi : i < n := by rw [← k2]; exact i1
    have := congrFun k5 ⟨i, hi⟩
    rw [mulVec_diagonal] at this
    unfold vec at this
    rw [List.getD_eq_getElem _ _ i1, List.getD_eq_getElem _ _ (by rw [h2]; exact hi)] at this
    simp only [List.getElem_mapIdx]
    rw [← this, mul_comm, mul_div_assoc, div_self (hs i), mul_one]

end

end Jaxfg
