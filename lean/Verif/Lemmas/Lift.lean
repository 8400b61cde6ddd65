/- The solver operations on finite numbers are the real ones. -/
import Verif.Model.Lift
import Verif.Lemmas.Solver
import Verif.Lemmas.Noise

namespace Jaxfg
open Ext (fin)
open Spec
variable {α β : Type}

/-! ### Scalars -/

theorem fin_zero : (0 : Ext) = fin 0 := rfl
theorem fin_add (x y : ℝ) : fin x + fin y = fin (x + y) := rfl
theorem fin_neg (x : ℝ) : -fin x = fin (-x) := rfl
theorem fin_mul (x y : ℝ) : fin x * fin y = fin (x * y) := rfl
theorem fin_sub (x y : ℝ) : fin x - fin y = fin (x - y) := by rw [sub_eq_add_neg x y]; rfl
theorem fin_div {x y : ℝ} (h : y ≠ 0) : fin x / fin y = fin (x / y) := by
  show Ext.div (fin x) (fin y) = _
  simp [Ext.div, h]
theorem fin_div_zero (x : ℝ) : fin x / fin 0 = Ext.infMul x := by
  show Ext.div (fin x) (fin 0) = _
  simp [Ext.div]
theorem fin_div_zero_zero : fin 0 / fin 0 = Ext.nan := by
  rw [fin_div_zero]; simp [Ext.infMul]
theorem fin_lit (q : ℚ) : (Scal.lit q : Ext) = fin q := rfl
theorem fin_lit_zero : (Scal.lit 0 : Ext) = fin 0 := by rw [fin_lit]; simp
theorem fin_le (x y : ℝ) : Scal.le (fin x) (fin y) = true ↔ x ≤ y := by
  show Ext.le (fin x) (fin y) = true ↔ _
  simp [Ext.le]
theorem fin_lt (x y : ℝ) : Scal.lt (fin x) (fin y) = true ↔ x < y := by
  show Ext.lt (fin x) (fin y) = true ↔ _
  simp [Ext.lt]
theorem fin_maximum (x y : ℝ) : Scal.maximum (fin x) (fin y) = fin (max x y) := rfl
theorem fin_minimum (x y : ℝ) : Scal.minimum (fin x) (fin y) = fin (min x y) := rfl
theorem fin_abs (x : ℝ) : Scal.abs (fin x) = fin |x| := rfl
theorem fin_sqrt {x : ℝ} (h : 0 ≤ x) : Scal.sqrt (fin x) = fin (Real.sqrt x) := by
  show Ext.sqrt (fin x) = _
  simp [Ext.sqrt, not_lt.2 h]
theorem fin_sum (l : List ℝ) : Scal.sum (l.map fin) = fin l.sum := by
  show (l.map fin).foldr Ext.add (fin 0) = _
  induction l with
  | nil => rfl
  | cons x l ih => rw [List.map_cons, List.foldr_cons, ih]; rfl
theorem le_nan (x : Ext) : Scal.le x Ext.nan = false := by
  show Ext.le x .nan = false
  cases x <;> rfl
theorem le_ninf (x : ℝ) : Scal.le (fin x) Ext.ninf = false := rfl
theorem lt_nan (x : Ext) : Scal.lt x Ext.nan = false := by
  show Ext.lt x .nan = false
  cases x <;> rfl
theorem nan_lt (x : Ext) : Scal.lt Ext.nan x = false := by
  show Ext.lt .nan x = false
  cases x <;> rfl

theorem fin_injective : Function.Injective fin := fun _ _ h => by injection h

theorem assign_map_fin {a b : Assign ℝ} (h : a.map fin = b.map fin) : a = b := by
  obtain ⟨s, l⟩ := a
  obtain ⟨s', l'⟩ := b
  simp only [Assign.map, Assign.mk.injEq] at h
  rw [List.map_injective_iff.2 fin_injective h.1, h.2]

/-! ### Vectors -/

/-- Euclidean norm. -/
noncomputable def nrm (l : List ℝ) : ℝ := Real.sqrt (sqNorm l)

theorem nrm_nonneg (l : List ℝ) : 0 ≤ nrm l := Real.sqrt_nonneg _
theorem nrm_sq (l : List ℝ) : nrm l * nrm l = sqNorm l := Real.mul_self_sqrt (sqNorm_nonneg l)

theorem fin_sumSq (l : List ℝ) : sumSq (l.map fin) = fin (sqNorm l) := by
  unfold sumSq sqNorm
  rw [← fin_sum, List.map_map, List.map_map]
  congr 1
  apply List.map_congr_left
  intro x _
  simp only [Function.comp, pow_two]
  rfl

theorem fin_vecNorm (l : List ℝ) : vecNorm (l.map fin) = fin (nrm l) := by
  unfold vecNorm nrm
  rw [fin_sumSq, fin_sqrt (sqNorm_nonneg l)]

theorem fin_zipWith {f : Ext → Ext → Ext} {g : ℝ → ℝ → ℝ} (h : ∀ x y, f (fin x) (fin y) = fin (g x y)) :
    ∀ (l m : List ℝ), List.zipWith f (l.map fin) (m.map fin) = (List.zipWith g l m).map fin
  | [], _ => by simp
  | _ :: _, [] => by simp
  | x :: l, y :: m => by simp [h, fin_zipWith h l m]

theorem fin_zipWith_add (l m : List ℝ) :
    List.zipWith (· + ·) (l.map fin) (m.map fin) = (List.zipWith (· + ·) l m).map fin := fin_zipWith fin_add l m
theorem fin_zipWith_sub (l m : List ℝ) :
    List.zipWith (· - ·) (l.map fin) (m.map fin) = (List.zipWith (· - ·) l m).map fin := fin_zipWith fin_sub l m
theorem fin_zipWith_mul (l m : List ℝ) :
    List.zipWith (· * ·) (l.map fin) (m.map fin) = (List.zipWith (· * ·) l m).map fin := fin_zipWith fin_mul l m

theorem fin_map_neg (l : List ℝ) : (l.map fin).map (fun x => -x) = (l.map fun x => -x).map fin := by
  rw [List.map_map, List.map_map]; rfl

theorem fin_map_mul (c : ℝ) (l : List ℝ) : (l.map fin).map (fun x => fin c * x) = (l.map fun x => c * x).map fin := by
  rw [List.map_map, List.map_map]; rfl

theorem fin_map_abs (l : List ℝ) : (l.map fin).map Scal.abs = (l.map fun x => |x|).map fin := by
  rw [List.map_map, List.map_map]; rfl

theorem sqNorm_abs (l : List ℝ) : sqNorm (l.map fun x => |x|) = sqNorm l := by
  unfold sqNorm; rw [List.map_map]; congr 1; apply List.map_congr_left; intro x _; simp

theorem nrm_abs (l : List ℝ) : nrm (l.map fun x => |x|) = nrm l := by unfold nrm; rw [sqNorm_abs]

theorem fin_vecAdd (l m : List ℝ) :
    vecAdd (l.map fin) (m.map fin) =
      (if l.length = m.length then Except.ok (List.zipWith (· + ·) l m) else .error .type : Py (List ℝ)).map (List.map fin) := by
  unfold vecAdd
  by_cases h : l.length = m.length
  · simp only [List.length_map, if_pos h, fin_zipWith_add]; rfl
  · simp only [List.length_map, if_neg h]; rfl

theorem fin_jnpMax (x : ℝ) (xs : List ℝ) : jnpMax ((x :: xs).map fin) = .ok (fin (xs.foldl max x)) := by
  unfold jnpMax
  simp only [List.map_cons]
  congr 1
  induction xs generalizing x with
  | nil => rfl
  | cons y xs ih => rw [List.map_cons, List.foldl_cons, List.foldl_cons, fin_maximum, ih]

/-! ### Products -/

theorem gather_map [Zero α] [Zero β] {f : α → β} (h0 : f 0 = 0) (l : List α) (idx : List Nat) :
    gather (l.map f) idx = (gather l idx).map f := by
  unfold gather
  rw [List.map_map]
  apply List.map_congr_left
  intro i _
  simp only [List.length_map, Function.comp_apply, List.getD_eq_getElem?_getD, List.getElem?_map]
  cases l[min i (l.length - 1)]? with
  | none => simp [h0]
  | some x => simp

theorem scatterAdd_fin (l : List ℝ) (upd : List (Nat × ℝ)) :
    scatterAdd (l.map fin) (upd.map fun p => (p.1, fin p.2)) = (scatterAdd l upd).map fin := by
  unfold scatterAdd
  induction upd generalizing l with
  | nil => rfl
  | cons p upd ih =>
    rw [List.map_cons, List.foldl_cons, List.foldl_cons, ← ih]
    congr 1
    apply List.ext_getElem (by simp)
    intro i h1 h2
    simp only [List.getElem_modify, List.getElem_map]
    split <;> rfl

theorem fin_matmul (A : Coo ℝ) (x : List ℝ) : (A.map fin).matmul (x.map fin) = (A.matmul x).map (List.map fin) := by
  unfold Coo.matmul Coo.map
  simp only [List.length_map]
  by_cases h1 : x.length = A.shape.2
  · by_cases h2 : A.values.length ≠ A.cols.length
    · simp [h1, h2, Except.map]
    · by_cases h3 : A.rows.length ≠ A.cols.length
      · simp [h1, h2, h3, Except.map]
      · have e : List.replicate A.shape.1 (0 : Ext) = (List.replicate A.shape.1 (0 : ℝ)).map fin := by
          rw [List.map_replicate]; rfl
        simp only [h1, decide_true, pyAssert_true, py_bind_ok, h2, h3, if_false, py_pure, Except.map]
        rw [e, gather_map (by rfl), fin_zipWith_mul, ← scatterAdd_fin, List.zip_map_right]
        rfl
  · simp [h1, Except.map]

theorem coo_map_T (A : Coo ℝ) : (A.map fin).T = A.T.map fin := rfl

/-! ### Retraction -/

theorem slice_map (f : α → β) (l : List α) (i n : Nat) : slice (l.map f) i n = (slice l i n).map f := by
  unfold slice; rw [List.map_take, List.map_drop]

theorem setSlice_map (f : α → β) (l : List α) (i n : Nat) (v : List α) :
    setSlice (l.map f) i n (v.map f) = (setSlice l i n v).map (List.map f) := by
  unfold setSlice
  simp only [slice_map, List.length_map]
  by_cases h : v.length = (slice l i n).length
  · rw [if_pos h, if_pos h]; simp [Except.map]
  · rw [if_neg h, if_neg h]
    match v with
    | [] => rfl
    | [x] => simp [Except.map]
    | x :: y :: v => rfl

theorem chunk_map (f : α → β) : ∀ (c d : Nat) (l : List α), chunk c d (l.map f) = (chunk c d l).map (List.map f)
  | 0, _, _ => rfl
  | c + 1, d, l => by
    unfold chunk
    rw [List.map_cons, ← chunk_map f c d, List.map_take, List.map_drop]

theorem reshape2_map (f : α → β) (l : List α) (c d : Nat) :
    reshape2 (l.map f) c d = (reshape2 l c d).map (List.map (List.map f)) := by
  unfold reshape2
  rw [List.length_map]
  split
  · rw [chunk_map]; rfl
  · rfl

theorem flatten_value_map (f : α → β) (v : Value α) : (v.map f).flatten = v.flatten.map f := by
  unfold Value.flatten Value.map
  simp only [List.flatMap_map, List.map_flatMap]
  rfl

theorem splitLeaves_map (f : α → β) : ∀ (ss : List (List Nat)) (l : List α),
    splitLeaves ss (l.map f) = (splitLeaves ss l).map (Arr.map f)
  | [], _ => rfl
  | s :: ss, l => by
    unfold splitLeaves
    rw [List.map_cons, ← splitLeaves_map f ss, List.map_drop]
    simp [Arr.map]

theorem unravel_map (f : α → β) (ex : Value α) (l : List α) : unravel (ex.map f) (l.map f) = (unravel ex l).map f := by
  unfold unravel Value.map
  simp only [List.map_map]
  rw [← splitLeaves_map]
  rfl

theorem unflatten_map {f : α → β} {c : VarClass α} {c' : VarClass β} (h : c'.default = c.default.map f) (l : List α) :
    c'.unflatten (l.map f) = (c.unflatten l).map (Value.map f) := by
  unfold VarClass.unflatten VarClass.paramDim
  rw [h, flatten_value_map, List.length_map, List.length_map]
  split
  · rw [unravel_map]; rfl
  · rfl

theorem mapM_map {γ δ : Type} {f : α → Py γ} {g : β → Py δ} {h : α → β} {k : γ → δ} (hg : ∀ a, g (h a) = (f a).map k) :
    ∀ l : List α, (l.map h).mapM g = (l.mapM f).map (List.map k)
  | [] => rfl
  | a :: l => by
    rw [List.map_cons, List.mapM_cons, List.mapM_cons, hg, mapM_map hg l]
    cases f a with
    | error e => rfl
    | ok c =>
      cases l.mapM f with
      | error e => rfl
      | ok cs => rfl

section
variable {CE : Ty → VarClass Ext} {gE : GraphOps Ext} {C : Ty → VarClass ℝ} {g : GraphOps ℝ}

theorem Lifts.paramDim (h : Lifts CE gE C g) (t : Ty) : (CE t).paramDim = (C t).paramDim := by
  unfold VarClass.paramDim
  rw [h.default, flatten_value_map, List.length_map]

theorem Lifts.zipWith (h : Lifts CE gE C g) (t : Ty) : ∀ (xs : List (Value ℝ)) (ds : List (List ℝ)),
    List.zipWith (CE t).retract (xs.map (Value.map fin)) (ds.map (List.map fin)) =
      (List.zipWith (C t).retract xs ds).map (Value.map fin)
  | [], _ => by simp
  | _ :: _, [] => by simp
  | x :: xs, d :: ds => by simp [h.retract, h.zipWith t xs ds]

theorem Lifts.retractType (h : Lifts CE gE C g) (a d : Assign ℝ) (new : List ℝ) (t : Ty) :
    Assign.retractType CE (a.map fin) (d.map fin) (new.map fin) t = (Assign.retractType C a d new t).map (List.map fin) := by
  unfold Assign.retractType
  simp only [Assign.map, h.paramDim, h.localDim, slice_map, reshape2_map]
  cases a.layout.countFromType.get t with
  | error e => rfl
  | ok count =>
  simp only [py_bind_ok]
  cases a.layout.indexFromType.get t with
  | error e => rfl
  | ok i =>
  simp only [py_bind_ok]
  cases d.layout.indexFromType.get t with
  | error e => rfl
  | ok li =>
  simp only [py_bind_ok]
  cases reshape2 (slice a.storage i ((C t).paramDim * count)) count (C t).paramDim with
  | error e => rfl
  | ok vals =>
  simp only [py_bind_ok, Except.map]
  cases reshape2 (slice d.storage li ((C t).localDim * count)) count (C t).localDim with
  | error e => rfl
  | ok deltas =>
  simp only [py_bind_ok]
  rw [mapM_map (fun l => unflatten_map (h.default t) l)]
  cases vals.mapM (C t).unflatten with
  | error e => rfl
  | ok xs =>
  simp only [py_bind_ok, Except.map]
  rw [h.zipWith, List.flatMap_map]
  have : (List.zipWith (C t).retract xs deltas).flatMap (fun a => (a.map fin).flatten) =
      ((List.zipWith (C t).retract xs deltas).flatMap Value.flatten).map fin := by
    rw [List.map_flatMap]
    simp only [flatten_value_map]
  rw [this, setSlice_map]
  rfl

theorem Lifts.manifoldRetract (h : Lifts CE gE C g) (a d : Assign ℝ) :
    (a.map fin).manifoldRetract CE (d.map fin) = (a.manifoldRetract C d).map (Assign.map fin) := by
  unfold Assign.manifoldRetract
  have e : List.replicate (a.map fin).storage.length (0 : Ext) = (List.replicate a.storage.length (0 : ℝ)).map fin := by
    simp only [Assign.map, List.map_replicate, List.length_map]; rfl
  have aux : ∀ (ts : List Ty) (new : List ℝ), ts.foldlM (Assign.retractType CE (a.map fin) (d.map fin)) (new.map fin) =
      (ts.foldlM (Assign.retractType C a d) new).map (List.map fin) := by
    intro ts
    induction ts with
    | nil => intro new; rfl
    | cons t ts ih =>
      intro new
      rw [List.foldlM_cons, List.foldlM_cons, h.retractType]
      cases Assign.retractType C a d new t with
      | error e => rfl
      | ok new' => simp only [Except.map, py_bind_ok]; exact ih new'
  rw [e, aux]
  show (do pyAssert (!a.layout.localFlag); pyAssert d.layout.localFlag; _) = _
  cases a.layout.localFlag with
  | true => rfl
  | false =>
    cases d.layout.localFlag with
    | false => rfl
    | true =>
      simp only [Bool.not_false, pyAssert_true, py_bind_ok]
      have e2 : (a.map fin).layout.getVariableTypes = a.layout.getVariableTypes := rfl
      rw [e2]
      cases List.foldlM (Assign.retractType C a d) (List.replicate a.storage.length 0) a.layout.getVariableTypes with
      | error e => rfl
      | ok new => rfl

/-! ### The extensions are extensions -/

theorem list_toReal (l : List ℝ) : (l.map fin).map Ext.toReal = l := by
  rw [List.map_map]; exact (List.map_congr_left fun _ _ => rfl).trans (List.map_id l)

theorem value_toReal (v : Value ℝ) : (v.map fin).map Ext.toReal = v := by
  cases v
  simp only [Value.map, List.map_map]
  congr 1
  refine (List.map_congr_left fun a _ => ?_).trans (List.map_id _)
  cases a
  simp only [Function.comp, Arr.map, list_toReal]
  rfl

theorem lifts_lift (C : Ty → VarClass ℝ) (g : GraphOps ℝ) : Lifts (fun t => (C t).lift) g.lift C g where
  default _ := rfl
  localDim _ := rfl
  retract t x d := by simp only [VarClass.lift, value_toReal, list_toReal]
  layout := rfl
  localLayout := rfl
  cost a := by simp only [GraphOps.lift, Assign.map, list_toReal]
  jacobian a r := by simp only [GraphOps.lift, Assign.map, list_toReal]

theorem liftsSolver_lift (L : LinSolver ℝ) : LiftsSolver L.lift L := by
  intro A b l i
  simp only [LinSolver.lift, Coo.map, list_toReal]
  rfl

end

end Jaxfg
