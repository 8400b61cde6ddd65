/-
Properties C51-C53, C65, C66: marginal covariances (jaxfg/experimental/_sparse_covariance.py).
-/
import Verif.Lemmas.Covariance
import Verif.Lemmas.LinSolve
import Verif.Lemmas.Cholesky
import Verif.Lemmas.ExampleGraph
import Verif.Props.Layout

namespace Jaxfg.Props
open Matrix Spec SparseCovariance

section
variable {α : Type _} [Field α] {L : Csc α} {lay : Layout} {n : Nat}

/-! ### C51: entries -/

/-- **C51.** For every lower triangular factor with a non-zero diagonal, after every history of queries, `self[i, j]` and
`self[j, i]` return entry `(i, j)` of `(L Lᵀ)⁻¹`, if the interpreter allows `2 n - 1 - i - j` nested calls. -/
theorem C51_entries (h : IsTriangularFactor L n) {cache : CovCache α} (hr : Reachable (ofFactor L lay) cache) (i j : Fin n) (depth : Nat)
    (hd : 2 * n ≤ depth + i + j + 1) :
    ((ofFactor L lay).getItem depth i j cache).1 = .ok (((cscMatrix L n * (cscMatrix L n)ᵀ)⁻¹) i j) ∧
    ((ofFactor L lay).getItem depth j i cache).1 = .ok (((cscMatrix L n * (cscMatrix L n)ᵀ)⁻¹) i j) := by
  have h1 := getItem_eq (lay := lay) h (reachable_good h hr) i.2 j.2 hd
  rw [extend_of] at h1
  exact ⟨h1, by rw [getItem_symm]; exact h1⟩

/-- **C51**, for any recursion limit: a query in range that returns at all returns the right value. -/
theorem C51_sound (h : IsTriangularFactor L n) {cache : CovCache α} (hr : Reachable (ofFactor L lay) cache) (i j : Fin n) (depth : Nat)
    {v : α} (hv : ((ofFactor L lay).getItem depth i j cache).1 = .ok v) : v = ((cscMatrix L n * (cscMatrix L n)ᵀ)⁻¹) i j := by
  rw [(getItem_good h depth i j cache (reachable_good h hr)).2 i j rfl rfl (.inl i.2) v hv, extend_of]
  rfl

/-- A factor with an entry below the diagonal, a stored zero and an entry stored in two parts. -/
def exL : Csc ℚ := ⟨(3, 3), [[(0, 2), (2, 1), (1, 0)], [(1, 1), (2, 1), (2, 2)], [(2, 4)]]⟩

theorem exL_factor : IsTriangularFactor exL 3 := by
  refine ⟨rfl, rfl, ?_, ?_⟩
  · decide
  · intro i; fin_cases i <;> simp [cscMatrix, exL]

/-- Non-vacuity: a cache after a failed and a successful query, and a query that uses it. -/
example : IsTriangularFactor exL 3 ∧
    (let c := ofFactor exL (Layout.make Ex.C [Ex.x] true)
     let cache := (c.getItem 3 0 0 .empty).2
     let cache' := (c.getItem 5 1 (-1) cache).2
     Reachable c cache' ∧ (c.getItem 3 0 0 .empty).1 = .error .recursion ∧ (c.getItem 6 0 0 cache').1 = .ok (17 / 64) ∧
      (c.getItem 6 2 0 cache').1 = .ok (-1 / 32)) := by
  refine ⟨exL_factor, .getItem (.getItem .make _ _ _) _ _ _, by rfl, by decide +kernel, by decide +kernel⟩

/-! ### C65: depth of the recursion -/

/-- **C65.** The recursion is as deep as C51 allows for, for every factor whose columns are stored in order with an entry just below the
diagonal (every banded or dense factor): a first query for entry `(0, 0)` raises `RecursionError` unless `2 n - 1` nested calls are
allowed. Python's default limit of 1000 frames allows fewer than 500, so that this happens for every such `n > 250`. -/
theorem C65_recursion_depth (h : IsTriangularFactor L n) (hsub : ∀ k, k + 1 < n → ∃ d e rest, L.columns.getD k [] = (k, d) :: (k + 1, e) :: rest)
    (depth : Nat) (hd : depth + 1 < 2 * n) : ((ofFactor L lay).getItem depth 0 0 .empty).1 = .error .recursion := by
  suffices hs : ∀ depth k, k < n → (depth + 1 < 2 * (n - k) → (ofFactor L lay).getItem depth k k .empty = (.error .recursion, .empty)) ∧
      (depth + 2 < 2 * (n - k) → (ofFactor L lay).getItem depth k (k + 1 : Nat) .empty = (.error .recursion, .empty)) by
    have := (hs depth 0 (by omega)).1 (by omega)
    simp only [Nat.cast_zero] at this
    rw [this]
  intro depth
  induction depth with
  | zero => intro k _; exact ⟨fun _ => rfl, fun _ => rfl⟩
  | succ depth ih =>
    intro k hk
    have hc : ∀ k', (PyDict.empty : CovCache α).get? k' = none := fun _ => rfl
    have hcol : (ofFactor L lay).L.getcol k = .ok (L.columns.getD k []) := getcol_ok h hk
    constructor
    · intro hd
      have hk1 : k + 1 < n := by omega
      obtain ⟨d, e, rest, hl⟩ := hsub k hk1
      have hnext := (ih k hk).2 (by omega)
      rw [getItem_symm] at hnext
      unfold getItem compute sumOverCol
      rw [if_neg (by omega)]
      simp only [hc, if_true]
      rw [diagInv_ok h hk, hcol, hl]
      simp only [sumLoop, ne_eq, not_true_eq_false, if_false]
      rw [if_pos (by omega), hnext]
    · intro hd
      have hk1 : k + 1 < n := by omega
      obtain ⟨d, e, rest, hl⟩ := hsub k hk1
      have hnext := (ih (k + 1) hk1).1 (by omega)
      unfold getItem compute sumOverCol
      rw [if_neg (by omega)]
      simp only [hc]
      rw [if_neg (by omega), diagInv_ok h hk, hcol, hl]
      simp only [sumLoop, ne_eq, not_true_eq_false, if_false]
      rw [if_pos (by omega), hnext]

/-- Non-vacuity: a bidiagonal matrix of any size. -/
example (n : Nat) : let L : Csc ℚ := ⟨(n, n), (List.range n).map fun k => if k + 1 < n then [(k, 1), (k + 1, -1)] else [(k, 1)]⟩
    IsTriangularFactor L n ∧ ∀ k, k + 1 < n → ∃ d e rest, L.columns.getD k [] = (k, d) :: (k + 1, e) :: rest := by
  intro L
  have hcol : ∀ k < n, L.columns.getD k [] = if k + 1 < n then [(k, 1), (k + 1, -1)] else [(k, 1)] := by
    intro k hk
    simp [L, List.getD_eq_getElem?_getD, hk]
  refine ⟨⟨rfl, by simp [L], ?_, ?_⟩, ?_⟩
  · intro j hj e he
    rw [hcol j hj] at he
    split at he <;> simp at he
    · rcases he with rfl | rfl <;> simp <;> omega
    · subst he; simp; omega
  · intro i
    unfold cscMatrix
    rw [hcol i i.2]
    split <;> simp
  · intro k hk
    rw [hcol k (by omega), if_pos hk]
    exact ⟨_, _, _, rfl⟩

/-! ### C66: indices out of range -/

/-- **C66**, first part: with the smaller index in range and the other one too large, `self[i, j]` is `0` instead of an
`IndexError`, after every history. -/
theorem C66_too_large (h : IsTriangularFactor L n) {cache : CovCache α} (hr : Reachable (ofFactor L lay) cache) (i j : Nat) (hi : i < n)
    (hj : n ≤ j) (depth : Nat) (hd : n ≤ depth + i) : ((ofFactor L lay).getItem depth i j cache).1 = .ok 0 := by
  obtain ⟨v, hv⟩ := getItem_ok (lay := lay) h depth i j cache (reachable_good h hr) hi (by omega) (by omega)
  rw [hv, (getItem_good h depth i j cache (reachable_good h hr)).2 i j rfl rfl (.inl hi) v hv, extend, dif_neg (by omega)]

/-- **C66**, second part: with both indices too large the query raises `IndexError`, after every history. -/
theorem C66_both_too_large (h : IsTriangularFactor L n) {cache : CovCache α} (hr : Reachable (ofFactor L lay) cache) (i j : Nat) (hi : n ≤ i)
    (hj : n ≤ j) (depth : Nat) : ((ofFactor L lay).getItem (depth + 1) i j cache).1 = .error .index := by
  suffices hs : ∀ i j : Nat, n ≤ i → i ≤ j → ((ofFactor L lay).getItem (depth + 1) i j cache).1 = .error .index by
    rcases le_total i j with hij | hij
    · exact hs i j hi hij
    · rw [getItem_symm]; exact hs j i hj hij
  intro i j hi hij
  unfold getItem compute
  rw [if_neg (by omega)]
  simp only [reachable_none h hr hi hij, diagInv_too_large (lay := lay) h hi, diagInv_too_large (lay := lay) h (hi.trans hij), ite_self]

/-- **C66**, third part: negative indices, which `self.L_diag_inv` and `self.L.getcol` count from the end, do not give entries of the
covariance. Row `i - n` is row `i` of `-L⁻¹`, scaled by the diagonal of `L`, after every history. -/
theorem C66_negative (h : IsTriangularFactor L n) {cache : CovCache α} (hr : Reachable (ofFactor L lay) cache) (i j : Fin n) (depth : Nat)
    (hd : 2 * n ≤ depth + i + j + 1) :
    ((ofFactor L lay).getItem (depth + 1) ((i : Int) - n) j cache).1 = .ok (-((cscMatrix L n)⁻¹ i j / cscMatrix L n i i)) := by
  have hc := compute_negative (lay := lay) h i j depth (reachable_good h hr)
  unfold getItem
  rw [if_neg (by omega)]
  simp only
  rcases hx : cache.get? ((i : Int) - n, (j : Int)) with _ | v
  · simp only
    obtain ⟨v, hv⟩ := hc.2 hd
    rcases hy : (ofFactor L lay).compute ((ofFactor L lay).getItem depth) ((i : Int) - n) j cache with ⟨_ | w, cache'⟩
    · rw [hy] at hv; cases hv
    · rw [hy] at hc
      simp only
      rw [hc.1 w rfl]
  · rw [reachable_negative h hr i j hx]

/-- **C66**: in particular `self[-1, j]` is the negative of the right entry. -/
theorem C66_minus_one (h : IsTriangularFactor L n) {cache : CovCache α} (hr : Reachable (ofFactor L lay) cache) (i j : Fin n)
    (hi : i.val + 1 = n) (depth : Nat) (hd : 2 * n ≤ depth + i + j + 1) : ((ofFactor L lay).getItem (depth + 1) (-1) j cache).1 = .ok (-((cscMatrix L n * (cscMatrix L n)ᵀ)⁻¹) i j) := by
  have := C66_negative (lay := lay) h hr i j depth hd
  rw [show ((i : Int) - n) = -1 by omega] at this
  rw [this, ← transpose_mul_cov h, mul_apply, Finset.sum_eq_single i]
  · have hd := h.diagonal i
    rw [transpose_apply, mul_div_cancel_left₀ _ hd]
    rfl
  · intro k _ hk
    rw [transpose_apply, cscMatrix_lower h (show k < i from Fin.lt_def.2 (by have : k.val ≠ i.val := fun h' => hk (Fin.ext h')
                                                                             omega)), zero_mul]
  · simp

/-- Non-vacuity: the indices of `exL`, after a query with a negative and one with two large indices. -/
example : IsTriangularFactor exL 3 ∧
    Reachable (ofFactor exL lay) ((ofFactor exL lay).getItem 9 7 8 ((ofFactor exL lay).getItem 9 (-1) 1 .empty).2).2 ∧ ((2 : Fin 3).val + 1 = 3) ∧ 2 * 3 ≤ 6 + ((2 : Fin 3) : Nat) + ((0 : Fin 3) : Nat) + 1 :=
  ⟨exL_factor, .getItem (.getItem .make 9 (-1) 1) 9 7 8, rfl, by decide⟩

/-! ### C52: marginals -/

/-- **C52.** For the local layout of any list of variables, after every history, `compute_marginal(v₁, ..., vₖ)` is square with one row for
each local coordinate of the `vᵢ`, in the order given; the entry in the row of coordinate `a` of `v` and the column of coordinate `b`
of `w` is the entry of `(L Lᵀ)⁻¹` at the indices of the two coordinates in the layout. -/
theorem C52_marginal {β : Type} {C : Ty → VarClass β} {ws : List Var} (hw : ws.Nodup) (hlay : lay = Layout.make C ws true)
    (h : IsTriangularFactor L lay.dim) {cache : CovCache α} (hr : Reachable (ofFactor L lay) cache) (depth : Nat)
    (hd : 2 * lay.dim ≤ depth + 1) (vars : List Var) (hv : ∀ v ∈ vars, v ∈ ws) :
    ∃ M, ((ofFactor L lay).computeMarginal C depth vars cache).1 = .ok M ∧
      let coords := vars.flatMap fun v => (List.range (C v.ty).localDim).map fun a => (v, a)
      M.length = coords.length ∧ (∀ row ∈ M, row.length = coords.length) ∧
      ∀ p q v a w b, coords[p]? = some (v, a) → coords[q]? = some (w, b) →
        ∃ (s t : Nat) (hs : s + a < lay.dim) (ht : t + b < lay.dim), lay.indexFromVar.get? v = some s ∧ lay.indexFromVar.get? w = some t ∧
          (M.getD p []).getD q 0 = ((cscMatrix L lay.dim * (cscMatrix L lay.dim)ᵀ)⁻¹) ⟨s + a, hs⟩ ⟨t + b, ht⟩ := by
  subst hlay
  obtain ⟨h1, -, -, -⟩ := C01_blocks_tile C ws hw true
  have hex : ∀ v, ∃ i, v ∈ ws → (Layout.make C ws true).indexFromVar.get? v = some i ∧ i + (C v.ty).localDim ≤ (Layout.make C ws true).dim := by
    intro v
    by_cases hv : v ∈ ws
    · obtain ⟨i, hi⟩ := h1 v hv
      exact ⟨i, fun _ => hi⟩
    · exact ⟨0, fun h => absurd h hv⟩
  choose start hstart using hex
  have hidx := marginalIndices_eq (C := C) fun v hv' => (hstart v (hv v hv')).1
  have hmem : ∀ k ∈ vars.flatMap (fun v => (List.range (C v.ty).localDim).map fun k => start v + k), k < (Layout.make C ws true).dim := by
    intro k hk
    simp only [List.mem_flatMap, List.mem_map, List.mem_range] at hk
    obtain ⟨v, hv', a, ha, rfl⟩ := hk
    have := (hstart v (hv v hv')).2
    omega
  have hM : ((ofFactor L (Layout.make C ws true)).computeMarginal C depth vars cache).1 =
      ((ofFactor L (Layout.make C ws true)).computeMarginalIdx depth
        ((vars.flatMap fun v => (List.range (C v.ty).localDim).map fun k => start v + k).map fun (i : Nat) => (i : Int)) cache).1 := by
    unfold computeMarginal
    rw [show (ofFactor L (Layout.make C ws true)).localLayout = Layout.make C ws true from rfl, hidx]
  refine ⟨_, hM.trans (marginalIdx_eq h (reachable_good h hr) hd hmem), ?_⟩
  intro coords
  have hco : (vars.flatMap fun v => (List.range (C v.ty).localDim).map fun k => start v + k) = coords.map fun c => start c.1 + c.2 := by
    simp only [coords, List.map_flatMap, List.map_map, Function.comp_def]
  rw [hco]
  refine ⟨by simp, ?_, ?_⟩
  · intro row hrow
    obtain ⟨i, -, rfl⟩ := List.mem_map.1 hrow
    simp
  · intro p q v a w b hp hq
    have hp' : v ∈ vars ∧ a < (C v.ty).localDim := by
      have := List.mem_of_getElem? hp
      simp only [coords, List.mem_flatMap, List.mem_map, List.mem_range, Prod.mk.injEq] at this
      obtain ⟨u, hu, k, hk, rfl, rfl⟩ := this
      exact ⟨hu, hk⟩
    have hq' : w ∈ vars ∧ b < (C w.ty).localDim := by
      have := List.mem_of_getElem? hq
      simp only [coords, List.mem_flatMap, List.mem_map, List.mem_range, Prod.mk.injEq] at this
      obtain ⟨u, hu, k, hk, rfl, rfl⟩ := this
      exact ⟨hu, hk⟩
    have hs1 := hstart v (hv v hp'.1)
    have hs2 := hstart w (hv w hq'.1)
    refine ⟨start v, start w, by omega, by omega, hs1.1, hs2.1, ?_⟩
    simp [List.getD_eq_getElem?_getD, hp, hq]
    rw [extend, dif_pos ⟨by omega, by omega⟩]
    rfl

/-- **C52**: a variable that the layout does not have raises `KeyError`. -/
theorem C52_missing {β : Type} {C : Ty → VarClass β} {ws : List Var} (hw : ws.Nodup) (hlay : lay = Layout.make C ws true)
    {cache : CovCache α} (depth : Nat) (vars : List Var) (hv : ∃ v ∈ vars, v ∉ ws) :
    (ofFactor L lay).computeMarginal C depth vars cache = (.error .key, cache) := by
  subst hlay
  unfold computeMarginal
  rw [marginalIndices_error]
  obtain ⟨v, h1, h2⟩ := hv
  exact ⟨v, h1, (C01_blocks_tile C ws hw true).2.1 v h2⟩

/-- **C52**: both modes of `as_dense` give the matrix `(L Lᵀ)⁻¹`. -/
theorem C52_as_dense [DecidableEq α] (h : IsTriangularFactor L lay.dim) {cache : CovCache α} (hr : Reachable (ofFactor L lay) cache) (depth : Nat)
    (hd : 2 * lay.dim ≤ depth + 1) (useInverse : Bool) :
    ((ofFactor L lay).asDense depth useInverse cache).1 =
      .ok (List.ofFn fun i => List.ofFn fun j => ((cscMatrix L lay.dim * (cscMatrix L lay.dim)ᵀ)⁻¹) i j) := by
  cases useInverse
  · have := marginalIdx_eq (lay := lay) h (reachable_good h hr) hd (idx := List.range lay.dim) (by simp)
    unfold asDense
    rw [if_neg (by simp)]
    refine this.trans ?_
    congr 1
    rw [← List.map_coe_finRange_eq_range, List.map_map, List.ofFn_eq_map]
    refine List.map_congr_left fun i _ => ?_
    simp only [Function.comp, List.map_map, List.ofFn_eq_map]
    exact List.map_congr_left fun j _ => extend_of _ i j
  · unfold asDense
    have e : (ofFactor L lay).L = L := rfl
    rw [if_pos rfl, e, if_neg (by simp [h.shape])]
    have hs : L.shape.1 = lay.dim := by rw [h.shape]
    have hm : ∀ n, L.toMatrix n n = cscMatrix L n := fun n => rfl
    simp only [hm]
    rw [hs]
    rw [if_neg (det_cscMatrix_ne h), Matrix.mul_inv_rev, ← transpose_nonsing_inv]

/-- Non-vacuity: a two-dimensional and a scalar variable, and the marginal of a variable listed first although it is stored last. -/
example : let lay := Layout.make Ex.C [Ex.z, Ex.x] true
    lay.dim = 3 ∧ IsTriangularFactor exL 3 ∧
    ((ofFactor exL lay).computeMarginal Ex.C 6 [Ex.x, Ex.z] .empty).1 =
      .ok [[1 / 16, -1 / 32, -3 / 16], [-1 / 32, 17 / 64, 3 / 32], [-3 / 16, 3 / 32, 25 / 16]] :=
  ⟨by decide, exL_factor, by decide +kernel⟩

end

/-! ### C53: the inverse information matrix -/

/-- A stored triangular matrix denotes itself. -/
theorem cscMatrix_ofLower {n : Nat} {M : Matrix (Fin n) (Fin n) ℝ} (hl : ∀ i j, i < j → M i j = 0) (z : Nat → Nat → Bool) :
    cscMatrix (Csc.ofLower n M z) n = M := by
  classical
  ext i j
  unfold cscMatrix
  have hcol : (Csc.ofLower n M z).columns.getD j [] =
      ((List.finRange n).filter fun i => j ≤ i ∧ (M i j ≠ 0 ∨ z i j)).map fun i => (i.val, M i j) := by
    simp [Csc.ofLower, List.getD_eq_getElem?_getD]
  rw [hcol, List.filter_map, List.map_map, List.filter_filter]
  have h1 : ∀ p : Fin n → Bool, (List.finRange n).filter (fun a => p a && decide (a = i)) = if p i then [i] else [] := by
    intro p
    rw [← List.filter_filter, List.filter_eq, List.count_eq_one_of_mem (List.nodup_finRange n) (List.mem_finRange i)]
    simp [List.filter_cons]
  have : ((List.finRange n).filter fun a => ((fun e : Nat × ℝ => decide (e.1 = i.val)) ∘ fun i => (i.val, M i j)) a &&
      decide (j ≤ a ∧ (M a j ≠ 0 ∨ z a j = true))) = if decide (j ≤ i ∧ (M i j ≠ 0 ∨ z i j = true)) then [i] else [] := by
    rw [← h1 fun a => decide (j ≤ a ∧ (M a j ≠ 0 ∨ z a j = true))]
    congr 1
    funext a
    rw [Bool.and_comm]
    simp [Fin.ext_iff]
  rw [this]
  split
  · simp
  · rename_i hn
    rw [decide_eq_true_eq] at hn
    simp only [List.map_nil, List.sum_nil]
    by_cases hij : i < j
    · exact (hl i j hij).symm
    · by_contra hne
      exact hn ⟨not_lt.1 hij, .inl fun h => hne h.symm⟩

theorem ofLower_factor {n : Nat} {M : Matrix (Fin n) (Fin n) ℝ} (hl : ∀ i j, i < j → M i j = 0) (hd : ∀ i, 0 < M i i) (z : Nat → Nat → Bool) :
    IsTriangularFactor (Csc.ofLower n M z) n := by
  classical
  refine ⟨rfl, by simp [Csc.ofLower], ?_, ?_⟩
  · intro j hj e he
    simp only [Csc.ofLower, List.getD_eq_getElem?_getD, List.getElem?_ofFn, hj, dite_true, Option.getD_some, List.mem_map, List.mem_filter,
      decide_eq_true_eq] at he
    obtain ⟨i, ⟨-, hi, -⟩, rfl⟩ := he
    exact ⟨hi, i.2⟩
  · intro i
    rw [cscMatrix_ofLower hl]
    exact (hd i).ne'

variable (lib : CholmodChoice) (F : Nat → FactorClass) (C : Ty → VarClass ℝ)

/-- **C53 (partial).** Let `A` be the Jacobian of the graph at `a` and `AᵀA` positive definite. Then `SparseCovariance.make` succeeds, and
after every history of queries, entry `(i, j)` of the object is entry `(σ i, σ j)` of `(AᵀA)⁻¹`, for the permutation `σ` that CHOLMOD
chose. The full statement has `(i, j)` instead of `(σ i, σ j)`; it is false, see `C53_permuted`. If `AᵀA` is not positive definite, `make`
raises. -/
theorem C53_partial {g : Graph} {a : Assign ℝ} {r : List ℝ} {A : Coo ℝ} (hr : g.computeWhitenedResidualVector F C a = .ok r)
    (hJ : g.computeWhitenedResidualJacobian F C a r = .ok A) (hA : CooWF A) :
    let M := cooMatrix A A.shape.1 A.shape.2
    let σ := lib.order ((A.shape.2, A.shape.1), (A.cols.zip A.rows).toFinset) A.shape.2
    ((Mᵀ * M).PosDef → ∃ c, SparseCovariance.make lib F C g a = .ok c ∧ c.localLayout = g.localLayout ∧
      ∀ cache, Reachable c cache → ∀ (i j : Fin A.shape.2) (depth : Nat), 2 * A.shape.2 ≤ depth + i + j + 1 →
        (c.getItem depth i j cache).1 = .ok (((Mᵀ * M)⁻¹) (σ i) (σ j))) ∧
    (¬ (Mᵀ * M).PosDef → SparseCovariance.make lib F C g a = .error .value) := by
  classical
  intro M σ
  have hm : ScipyCoo.toMatrix ⟨A.T.values, A.T.rows, A.T.cols, A.T.shape⟩ = Mᵀ := by
    rw [toMatrix_eq]
    exact cooMatrix_T
  have hmake : SparseCovariance.make lib F C g a = (cholmodAAtL lib ⟨A.T.values, A.T.rows, A.T.cols, A.T.shape⟩).map
      (fun L => ofFactor L g.localLayout) := by
    unfold SparseCovariance.make
    rw [hr, py_bind_ok, hJ, py_bind_ok, asScipy_ok (cooWF_T hA), py_bind_ok]
    cases cholmodAAtL lib ⟨A.T.values, A.T.rows, A.T.cols, A.T.shape⟩ <;> rfl
  have hL : cholmodAAtL lib ⟨A.T.values, A.T.rows, A.T.cols, A.T.shape⟩ = if (Mᵀ * M).PosDef then
      .ok (Csc.ofLower A.shape.2 (cholesky ((Mᵀ * M).submatrix σ σ)) (lib.storesZero ((A.shape.2, A.shape.1), (A.cols.zip A.rows).toFinset)))
      else .error .value := by
    have hm' : ScipyCoo.toMatrix ⟨A.T.values, A.T.rows, A.T.cols, A.T.shape⟩ * (ScipyCoo.toMatrix ⟨A.T.values, A.T.rows, A.T.cols, A.T.shape⟩)ᵀ =
        Mᵀ * M := by rw [hm]; rfl
    unfold cholmodAAtL
    simp only
    change (if (ScipyCoo.toMatrix ⟨A.T.values, A.T.rows, A.T.cols, A.T.shape⟩ *
        (ScipyCoo.toMatrix ⟨A.T.values, A.T.rows, A.T.cols, A.T.shape⟩)ᵀ : Matrix (Fin A.shape.2) (Fin A.shape.2) ℝ).PosDef then
      Except.ok (Csc.ofLower A.shape.2 (cholesky ((ScipyCoo.toMatrix ⟨A.T.values, A.T.rows, A.T.cols, A.T.shape⟩ *
        (ScipyCoo.toMatrix ⟨A.T.values, A.T.rows, A.T.cols, A.T.shape⟩)ᵀ : Matrix (Fin A.shape.2) (Fin A.shape.2) ℝ).submatrix σ σ)) _)
      else _) = _
    rw [hm']
    rfl
  rw [hmake, hL]
  constructor
  · intro hH
    rw [if_pos hH]
    refine ⟨_, rfl, rfl, fun cache hc i j depth hd => ?_⟩
    have hS : ((Mᵀ * M).submatrix σ σ).PosDef := hH.submatrix σ.injective
    have hch := cholesky_spec hS
    have hf := ofLower_factor hch.lower hch.diag_pos (lib.storesZero ((A.shape.2, A.shape.1), (A.cols.zip A.rows).toFinset))
    rw [(C51_entries hf hc i j depth hd).1, cscMatrix_ofLower hch.lower, hch.mul_self, inv_submatrix_equiv]
    rfl
  · intro hH
    rw [if_neg hH]
    rfl

/-- **C53 (partial)**, without a permutation: the entries are those of `(AᵀA)⁻¹`. -/
theorem C53_natural_order_partial {g : Graph} {a : Assign ℝ} {r : List ℝ} {A : Coo ℝ} (hr : g.computeWhitenedResidualVector F C a = .ok r)
    (hJ : g.computeWhitenedResidualJacobian F C a r = .ok A) (hA : CooWF A) (hlib : ∀ p n, lib.order p n = 1)
    (hH : ((cooMatrix A A.shape.1 A.shape.2)ᵀ * cooMatrix A A.shape.1 A.shape.2).PosDef) :
    ∃ c, SparseCovariance.make lib F C g a = .ok c ∧ c.localLayout = g.localLayout ∧
      ∀ cache, Reachable c cache → ∀ (i j : Fin A.shape.2) (depth : Nat), 2 * A.shape.2 ≤ depth + i + j + 1 →
        (c.getItem depth i j cache).1 = .ok ((((cooMatrix A A.shape.1 A.shape.2)ᵀ * cooMatrix A A.shape.1 A.shape.2)⁻¹) i j) := by
  obtain ⟨c, h1, h2, h3⟩ := (C53_partial lib F C hr hJ hA).1 hH
  refine ⟨c, h1, h2, fun cache hc i j depth hd => ?_⟩
  have := h3 cache hc i j depth hd
  rwa [hlib] at this

namespace StarGraph

/-- A third scalar variable. -/
def w : Var := ⟨0, 4⟩

/-- `x` is observed, and `y` and `w` are observed relative to `x`; all with unit noise. -/
noncomputable def fs : List Factor :=
  [⟨0, [Ex.x], .diagonal ⟨[1], [1]⟩, [⟨[1], [0]⟩]⟩, ⟨1, [Ex.x, Ex.y], .diagonal ⟨[1], [1]⟩, [⟨[1], [0]⟩]⟩,
    ⟨1, [Ex.x, w], .diagonal ⟨[1], [1]⟩, [⟨[1], [0]⟩]⟩]

theorem fs_wf : ∀ f ∈ fs, FactorWF Ex.F Ex.C f := by
  intro f hf
  simp only [fs, List.mem_cons, List.not_mem_nil, or_false] at hf
  rcases hf with rfl | rfl | rfl
  · exact Ex.prior_wf Ex.x _ _ ⟨⟨rfl, rfl⟩, rfl⟩ rfl
  · exact Ex.between_wf Ex.x Ex.y rfl _ _ ⟨⟨rfl, rfl⟩, rfl⟩ rfl
  · exact Ex.between_wf Ex.x w rfl _ _ ⟨⟨rfl, rfl⟩, rfl⟩ rfl

noncomputable def a : Assign ℝ := ⟨[0, 0, 0], Layout.make Ex.C [Ex.x, Ex.y, w] false⟩

noncomputable def J : Coo ℝ := ⟨[1, -1, -1, 1, 1], [0, 1, 2, 1, 2], [0, 0, 0, 1, 2], (3, 3)⟩

noncomputable def G : Graph where
  factorStacks := [⟨1, 0, [0], .diagonal, [⟨[1, 1], [1]⟩, ⟨[1, 1], [0]⟩], [[[0]]], Layout.make Ex.C [Ex.x, Ex.y, w] false⟩,
    ⟨2, 1, [0, 0], .diagonal, [⟨[2, 1], [1, 1]⟩, ⟨[2, 1], [0, 0]⟩], [[[0], [0]], [[1], [2]]], Layout.make Ex.C [Ex.x, Ex.y, w] false⟩]
  jacobianCoords := [(0, 0), (1, 0), (2, 0), (1, 1), (2, 2)]
  layout := Layout.make Ex.C [Ex.x, Ex.y, w] false
  localLayout := Layout.make Ex.C [Ex.x, Ex.y, w] true
  residualDim := 3

theorem make_eq : Graph.make Ex.C fs = .ok G := rfl

theorem residual_eq : G.computeWhitenedResidualVector Ex.F Ex.C a = .ok [0, 0, 0] := by
  refine Eq.trans (b := .ok [1 * (0 - 0), 1 * (0 - 0 - 0), 1 * (0 - 0 - 0)]) rfl ?_
  norm_num

theorem jacobian_eq : G.computeWhitenedResidualJacobian Ex.F Ex.C a [0, 0, 0] = .ok J := by
  refine Eq.trans (b := .ok ⟨[1 * (if (0 : Nat) = 0 then (1 : ℝ) else 0), 1 * (if (0 : Nat) = 0 then (-1 : ℝ) else 0),
    1 * (if (0 : Nat) = 0 then (-1 : ℝ) else 0), 1 * (if (0 : Nat) = 0 then (1 : ℝ) else 0), 1 * (if (0 : Nat) = 0 then (1 : ℝ) else 0)],
    [0, 1, 2, 1, 2], [0, 0, 0, 1, 2], (3, 3)⟩) rfl ?_
  simp only [one_mul]
  rfl

theorem matrix_eq : cooMatrix J 3 3 = !![1, 0, 0; -1, 1, 0; -1, 0, 1] := by
  ext i j
  fin_cases i <;> fin_cases j <;> simp [cooMatrix, entries, J]

theorem inverse_eq : ((cooMatrix J 3 3)ᵀ * cooMatrix J 3 3)⁻¹ = !![1, 1, 1; 1, 2, 1; 1, 1, 2] := by
  apply Matrix.inv_eq_right_inv
  rw [matrix_eq]
  ext i j
  fin_cases i <;> fin_cases j <;> simp [Matrix.mul_apply, Fin.sum_univ_three] <;> norm_num

theorem posDef : ((cooMatrix J 3 3)ᵀ * cooMatrix J 3 3).PosDef := by
  have h1 : Function.Injective (cooMatrix J 3 3).mulVec := by
    intro u v huv
    have h : ∀ i, ((cooMatrix J 3 3) *ᵥ u) i = ((cooMatrix J 3 3) *ᵥ v) i := fun i => congrFun huv i
    rw [matrix_eq] at h
    have h0 := h 0
    have h1 := h 1
    have h2 := h 2
    simp [Matrix.mulVec, dotProduct, Fin.sum_univ_three] at h0 h1 h2
    funext i
    fin_cases i
    · exact h0
    · simp; linarith
    · simp; linarith
  have := Matrix.PosDef.conjTranspose_mul_self (cooMatrix J 3 3) h1
  rwa [conjTranspose_eq_transpose_of_trivial] at this

end StarGraph

open StarGraph in
/-- **C53, negation.** On the graph of `StarGraph`, let CHOLMOD begin the elimination with a variable other than `x`, which is the first one in the
layout. (The minimum degree heuristic does this: `x` has two neighbours, the others have one.) Then `compute_marginal(x)` is `2`, although
the entry of `x` in the inverse of the information matrix is `1`. -/
theorem C53_permuted (hlib : ∀ p, lib.order p 3 0 ≠ 0) :
    Graph.make Ex.C fs = .ok G ∧ G.computeWhitenedResidualJacobian Ex.F Ex.C a [0, 0, 0] = .ok J ∧
    ((cooMatrix J 3 3)ᵀ * cooMatrix J 3 3)⁻¹ 0 0 = 1 ∧
    ∃ c, SparseCovariance.make lib Ex.F Ex.C G a = .ok c ∧ (c.computeMarginal Ex.C 5 [Ex.x] .empty).1 = .ok [[2]] := by
  refine ⟨StarGraph.make_eq, jacobian_eq, by rw [inverse_eq]; rfl, ?_⟩
  obtain ⟨c, h1, h2, h3⟩ := (C53_partial lib Ex.F Ex.C residual_eq jacobian_eq (by unfold CooWF J; simp)).1 posDef
  refine ⟨c, h1, ?_⟩
  have h4 := h3 .empty .make (0 : Fin 3) (0 : Fin 3) 5 (by decide)
  have h5 : (c.getItem 5 0 0 .empty).1 = .ok 2 := by
    refine h4.trans ?_
    congr 1
    change ((cooMatrix J 3 3)ᵀ * cooMatrix J 3 3)⁻¹ (lib.order _ 3 0) (lib.order _ 3 0) = 2
    rw [inverse_eq]
    generalize hk : lib.order _ 3 0 = k
    have : k ≠ 0 := hk ▸ hlib _
    fin_cases k
    · exact absurd rfl this
    · rfl
    · rfl
  unfold computeMarginal
  have hidx : marginalIndices Ex.C c.localLayout [Ex.x] = .ok [0] := by rw [h2]; rfl
  rw [hidx]
  simp only [computeMarginalIdx, marginalRows, marginalRow]
  rcases hx : c.getItem 5 0 0 .empty with ⟨_ | v, cache⟩
  · rw [hx] at h5; cases h5
  · rw [hx] at h5; cases Except.ok.inj h5; rfl

/-- Non-vacuity: there is such an order, and the natural one. -/
example : (∀ p, (⟨fun _ n => if h : n = 3 then Equiv.swap ⟨0, by omega⟩ ⟨1, by omega⟩ else 1, fun _ _ _ => false⟩ : CholmodChoice).order p 3 0 ≠ 0) ∧
    (∀ p n, (⟨fun _ _ => 1, fun _ _ _ => false⟩ : CholmodChoice).order p n = 1) :=
  ⟨fun p => by simp, fun _ _ => rfl⟩

end Jaxfg.Props
