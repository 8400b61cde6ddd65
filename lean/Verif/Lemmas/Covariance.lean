/- Lemmas about covariance recovery. -/
import Verif.Spec.Covariance
import Verif.Lemmas.Dict
import Verif.Lemmas.Assign
import Mathlib.LinearAlgebra.Matrix.Block
import Mathlib.Algebra.BigOperators.Fin
import Mathlib.Tactic.FieldSimp
import Mathlib.Tactic.Ring
import Mathlib.Tactic.LinearCombination

namespace Jaxfg
open Matrix Spec SparseCovariance
variable {α : Type _} [Field α]

/-- A matrix as a function of two natural numbers, zero outside. -/
def extend {n : Nat} (M : Matrix (Fin n) (Fin n) α) (i j : Nat) : α := if h : i < n ∧ j < n then M ⟨i, h.1⟩ ⟨j, h.2⟩ else 0

theorem extend_of {n : Nat} (M : Matrix (Fin n) (Fin n) α) (i j : Fin n) : extend M i j = M i j := by simp [extend]

section matrix
variable {n : Nat} {L : Csc α}

theorem cscMatrix_lower (h : IsTriangularFactor L n) {i j : Fin n} (hij : i < j) : cscMatrix L n i j = 0 := by
  unfold cscMatrix
  rw [List.filter_eq_nil_iff.2, List.map_nil, List.sum_nil]
  intro e he hc
  have := (h.lower j j.2 e he).1
  simp only [decide_eq_true_eq] at hc
  have : i.val < j.val := hij
  omega

theorem det_cscMatrix (h : IsTriangularFactor L n) : (cscMatrix L n).det = ∏ i, cscMatrix L n i i :=
  Matrix.det_of_isLowerTriangular _ fun _ _ hij => cscMatrix_lower h hij

theorem det_cscMatrix_ne (h : IsTriangularFactor L n) : (cscMatrix L n).det ≠ 0 := by
  rw [det_cscMatrix h]
  exact Finset.prod_ne_zero_iff.2 fun i _ => h.diagonal i

theorem lower_inv (h : IsTriangularFactor L n) {i j : Fin n} (hij : i < j) : (cscMatrix L n)⁻¹ i j = 0 := by
  have : Invertible (cscMatrix L n) := invertibleOfIsUnitDet _ (isUnit_iff_ne_zero.2 (det_cscMatrix_ne h))
  have hl : (cscMatrix L n).IsLowerTriangular := fun _ _ hij => cscMatrix_lower h hij
  exact blockTriangular_inv_of_blockTriangular hl hij

theorem diag_inv (h : IsTriangularFactor L n) (i : Fin n) : (cscMatrix L n)⁻¹ i i = 1 / cscMatrix L n i i := by
  have hu := isUnit_iff_ne_zero.2 (det_cscMatrix_ne h)
  have h1 : (cscMatrix L n * (cscMatrix L n)⁻¹) i i = 1 := by rw [mul_nonsing_inv _ hu]; simp
  rw [mul_apply, Finset.sum_eq_single i] at h1
  · have := h.diagonal i
    field_simp
    rw [mul_comm]
    exact h1
  · intro k _ hk
    rcases lt_or_gt_of_ne hk with hlt | hgt
    · rw [lower_inv h hlt, mul_zero]
    · rw [cscMatrix_lower h hgt, zero_mul]
  · simp

theorem transpose_mul_cov (h : IsTriangularFactor L n) : (cscMatrix L n)ᵀ * covarianceOf L n = (cscMatrix L n)⁻¹ := by
  have hu := isUnit_iff_ne_zero.2 (det_cscMatrix_ne h)
  unfold covarianceOf
  rw [Matrix.mul_inv_rev, ← Matrix.mul_assoc, mul_nonsing_inv _ (by rwa [det_transpose]), Matrix.one_mul]

theorem cov_symm (i j : Fin n) : covarianceOf L n i j = covarianceOf L n j i := by
  have : (covarianceOf L n)ᵀ = covarianceOf L n := by
    unfold covarianceOf
    rw [transpose_nonsing_inv, transpose_mul, transpose_transpose]
  rw [← this, transpose_apply, this]

theorem extend_cov_symm (i j : Nat) : extend (covarianceOf L n) i j = extend (covarianceOf L n) j i := by
  unfold extend
  by_cases h : i < n ∧ j < n
  · rw [dif_pos h, dif_pos h.symm, cov_symm]
  · rw [dif_neg h, dif_neg fun h' => h h'.symm]

/-- A weighted sum over a column of the matrix, entry by entry or row by row. -/
theorem sum_column (h : IsTriangularFactor L n) (i : Fin n) (T : Nat → α) :
    ((L.columns.getD i []).map fun e => e.2 * T e.1).sum = ∑ k : Fin n, cscMatrix L n k i * T k := by
  have hl : ∀ e ∈ L.columns.getD i [], e.1 < n := fun e he => (h.lower i i.2 e he).2
  unfold cscMatrix
  revert hl
  generalize L.columns.getD i [] = l
  induction l with
  | nil => simp
  | cons e l ih =>
    intro hl
    rw [List.map_cons, List.sum_cons, ih fun e he => hl e (by simp [he])]
    have he : e.1 < n := hl e (by simp)
    have : ∀ k : Fin n, (((e :: l).filter fun e => e.1 = k.val).map (·.2)).sum * T k =
        (if k = ⟨e.1, he⟩ then e.2 * T e.1 else 0) + ((l.filter fun e => e.1 = k.val).map (·.2)).sum * T k := by
      intro k
      by_cases hk : k = ⟨e.1, he⟩
      · subst hk; simp [add_mul]
      · have : ¬ e.1 = k.val := fun h' => hk (Fin.ext h'.symm)
        simp [hk, this]
    rw [Finset.sum_congr rfl fun k _ => this k, Finset.sum_add_distrib]
    simp

/-- The identity behind the algorithm. -/
theorem cov_identity (h : IsTriangularFactor L n) {i j : Nat} (hi : i < n) (hij : i ≤ j) :
    cscMatrix L n ⟨i, hi⟩ ⟨i, hi⟩ * extend (covarianceOf L n) i j +
      (((L.columns.getD i []).filter fun e => e.1 ≠ i).map fun e => e.2 * extend (covarianceOf L n) e.1 j).sum =
      if i = j then 1 / cscMatrix L n ⟨i, hi⟩ ⟨i, hi⟩ else 0 := by
  have hsplit : ∀ T : Nat → α, ((L.columns.getD i []).map fun e => e.2 * T e.1).sum = cscMatrix L n ⟨i, hi⟩ ⟨i, hi⟩ * T i +
      (((L.columns.getD i []).filter fun e => e.1 ≠ i).map fun e => e.2 * T e.1).sum := by
    intro T
    unfold cscMatrix
    simp only
    generalize L.columns.getD i [] = l
    induction l with
    | nil => simp
    | cons e l ih =>
      rw [List.map_cons, List.sum_cons, ih]
      by_cases he : e.1 = i
      · simp [he, add_mul]; ring
      · simp [he]; ring
  rw [← hsplit fun k => extend (covarianceOf L n) k j, sum_column h ⟨i, hi⟩ fun k => extend (covarianceOf L n) k j]
  by_cases hj : j < n
  · have h1 := congrFun (congrFun (transpose_mul_cov h) ⟨i, hi⟩) ⟨j, hj⟩
    rw [mul_apply] at h1
    have h2 : ∀ k : Fin n, extend (covarianceOf L n) k j = covarianceOf L n k ⟨j, hj⟩ := fun k => extend_of _ k ⟨j, hj⟩
    simp only [h2]
    simp only [transpose_apply] at h1
    rw [h1]
    by_cases hc : i = j
    · subst hc
      rw [if_pos rfl, diag_inv h]
    · rw [if_neg hc, lower_inv h]
      exact Fin.mk_lt_mk.2 (by omega)
  · rw [if_neg (by omega)]
    refine Finset.sum_eq_zero fun k _ => ?_
    rw [extend, dif_neg (by omega), mul_zero]

end matrix

section algorithm
variable {n : Nat} {c : SparseCovariance α}

/-- The value of the cache under every key that the algorithm visits from an index in range. -/
def GoodCache (L : Csc α) (n : Nat) (cache : CovCache α) : Prop :=
  ∀ i j : Nat, i ≤ j → i < n → ∀ v, cache.get? ((i : Int), (j : Int)) = some v → v = extend (covarianceOf L n) i j

theorem sumLoop_good {G : CovCache α → Prop} {get : Int → Int → CovCache α → Py α × CovCache α}
    (hg : ∀ i j cache, G cache → G (get i j cache).2) (col colL : Int) :
    ∀ (l : List (Nat × α)) (total : α) (cache : CovCache α), G cache → G (sumLoop get col colL l total cache).2 := by
  intro l
  induction l with
  | nil => intro total cache h; exact h
  | cons e l ih =>
    intro total cache h
    obtain ⟨row, val⟩ := e
    unfold sumLoop
    split
    · have := hg row colL cache h
      split
      · rename_i hx; rw [hx] at this; exact ih _ _ this
      · rename_i hx; rw [hx] at this; exact this
    · exact ih _ _ h

theorem sumLoop_val {G : CovCache α → Prop} {get : Int → Int → CovCache α → Py α × CovCache α}
    (hg : ∀ i j cache, G cache → G (get i j cache).2) {col colL : Int} {T : Nat → α} :
    ∀ {l : List (Nat × α)}, (∀ e ∈ l, (e.1 : Int) ≠ col → ∀ cache, G cache → ∀ v, (get e.1 colL cache).1 = .ok v → v = T e.1) →
    ∀ {total : α} {cache : CovCache α}, G cache → ∀ {v}, (sumLoop get col colL l total cache).1 = .ok v →
      v = total + ((l.filter fun e => (e.1 : Int) ≠ col).map fun e => e.2 * T e.1).sum := by
  intro l
  induction l with
  | nil => intro _ total cache _ v h; simp [sumLoop] at h; simp [h]
  | cons e l ih =>
    intro hv total cache h v hr
    obtain ⟨row, val⟩ := e
    unfold sumLoop at hr
    by_cases hc : col = (row : Int)
    · rw [if_neg (by simpa using hc)] at hr
      rw [List.filter_cons_of_neg (by simp [hc])]
      exact ih (fun e he => hv e (by simp [he])) h hr
    · rw [if_pos hc] at hr
      have h1 := hv (row, val) (by simp) (fun h => hc h.symm) cache h
      have h2 := hg row colL cache h
      rcases hx : get row colL cache with ⟨_ | x, cache'⟩
      · rw [hx] at hr; simp at hr
      · rw [hx] at hr h1 h2
        have := ih (fun e he => hv e (by simp [he])) h2 hr
        have hx' := h1 x rfl
        simp only at this hx'
        rw [this, List.filter_cons_of_pos (by simpa using fun h : (row : Int) = col => hc h.symm), List.map_cons, List.sum_cons, hx']
        ring

theorem sumLoop_ok {G : CovCache α → Prop} {get : Int → Int → CovCache α → Py α × CovCache α}
    (hg : ∀ i j cache, G cache → G (get i j cache).2) {col colL : Int} :
    ∀ {l : List (Nat × α)}, (∀ e ∈ l, (e.1 : Int) ≠ col → ∀ cache, G cache → ∃ v, (get e.1 colL cache).1 = .ok v) →
    ∀ {total : α} {cache : CovCache α}, G cache → ∃ v, (sumLoop get col colL l total cache).1 = .ok v := by
  intro l
  induction l with
  | nil => intro _ total cache _; exact ⟨total, rfl⟩
  | cons e l ih =>
    intro hv total cache h
    obtain ⟨row, val⟩ := e
    unfold sumLoop
    by_cases hc : col = (row : Int)
    · rw [if_neg (by simpa using hc)]
      exact ih (fun e he => hv e (by simp [he])) h
    · rw [if_pos hc]
      obtain ⟨x, h1⟩ := hv (row, val) (by simp) (fun h => hc h.symm) cache h
      have h2 := hg row colL cache h
      rcases hx : get row colL cache with ⟨_ | x, cache'⟩
      · rw [hx] at h1; cases h1
      · rw [hx] at h2
        exact ih (fun e he => hv e (by simp [he])) h2

theorem sumOverCol_good {G : CovCache α → Prop} {get : Int → Int → CovCache α → Py α × CovCache α}
    (hg : ∀ i j cache, G cache → G (get i j cache).2) (col colL : Int) {cache : CovCache α} (h : G cache) :
    G (c.sumOverCol get col colL cache).2 := by
  unfold sumOverCol
  split
  · exact sumLoop_good hg _ _ _ _ _ h
  · exact h

theorem compute_good {G : CovCache α → Prop} {get : Int → Int → CovCache α → Py α × CovCache α}
    (hg : ∀ i j cache, G cache → G (get i j cache).2) (row col : Int) {cache : CovCache α} (h : G cache) :
    G (c.compute get row col cache).2 := by
  unfold compute
  split
  · split
    · exact h
    · have := sumOverCol_good (c := c) hg col col h
      split <;> (rename_i hx; rw [hx] at this; exact this)
  · split
    · exact h
    · have := sumOverCol_good (c := c) hg row col h
      split <;> (rename_i hx; rw [hx] at this; exact this)

variable {L : Csc α} {lay : Layout}

theorem pyIndex_nat {m i : Nat} (h : i < m) : pyIndex m (i : Int) = .ok i := by
  unfold pyIndex
  rw [if_pos ⟨by omega, by omega⟩]
  simp

theorem diagInv_ok (h : IsTriangularFactor L n) {i : Nat} (hi : i < n) :
    (ofFactor L lay).diagInv i = .ok (1 / cscMatrix L n ⟨i, hi⟩ ⟨i, hi⟩) := by
  have hlen : (ofFactor L lay).lDiagInv.length = n := by simp [ofFactor, Csc.diagonal, h.shape]
  unfold diagInv
  rw [hlen, pyIndex_nat hi]
  simp only [py_bind_ok, py_pure]
  congr 1
  simp [ofFactor, Csc.diagonal, h.shape, List.getD_eq_getElem?_getD, hi, Csc.entry, cscMatrix]

theorem getcol_ok (h : IsTriangularFactor L n) {i : Nat} (hi : i < n) : L.getcol i = .ok (L.columns.getD i []) := by
  unfold Csc.getcol
  rw [h.shape, pyIndex_nat hi]
  rfl

/-- What one level of the recursion computes, given what the next level computes. -/
theorem compute_spec (h : IsTriangularFactor L n) {get : Int → Int → CovCache α → Py α × CovCache α}
    (hg : ∀ i j cache, GoodCache L n cache → GoodCache L n (get i j cache).2) {i j : Nat} (hi : i < n) (hij : i ≤ j)
    {cache : CovCache α} (hc : GoodCache L n cache) :
    ((∀ r, i < r → r < n → ∀ cache, GoodCache L n cache → ∀ v, (get (r : Nat) (j : Nat) cache).1 = .ok v → v = extend (covarianceOf L n) r j) →
      ∀ v, ((ofFactor L lay).compute get i j cache).1 = .ok v → v = extend (covarianceOf L n) i j) ∧
    ((∀ r, i < r → r < n → ∀ cache, GoodCache L n cache → ∃ v, (get (r : Nat) (j : Nat) cache).1 = .ok v) →
      ∃ v, ((ofFactor L lay).compute get i j cache).1 = .ok v) := by
  have hid := cov_identity h hi hij
  have hd := h.diagonal ⟨i, hi⟩
  have hrows : ∀ e ∈ L.columns.getD i [], (e.1 : Int) ≠ (i : Int) → i < e.1 ∧ e.1 < n := by
    intro e he hne
    have := h.lower i hi e he
    omega
  have hfilter : ((L.columns.getD i []).filter fun e => (e.1 : Int) ≠ (i : Int)) = (L.columns.getD i []).filter fun e => e.1 ≠ i := by
    congr 1; funext e; simp
  have hcol : (ofFactor L lay).L.getcol i = .ok (L.columns.getD i []) := getcol_ok h hi
  unfold compute sumOverCol
  by_cases hc' : i = j
  · subst hc'
    rw [if_pos rfl] at hid
    rw [if_pos rfl, hcol, diagInv_ok h hi]
    simp only
    constructor
    · intro hv v hr
      rcases hx : sumLoop get i i (L.columns.getD i []) 0 cache with ⟨_ | s, cache'⟩
      · rw [hx] at hr; simp at hr
      · rw [hx] at hr
        have hs := sumLoop_val hg (T := fun r => extend (covarianceOf L n) r i) (fun e he hne => hv e.1 (hrows e he hne).1 (hrows e he hne).2) hc (congrArg Prod.fst hx)
        simp only [Except.ok.injEq] at hr
        rw [hfilter, zero_add] at hs
        rw [← hs] at hid
        rw [← hr]
        field_simp
        field_simp at hid
        linear_combination -hid
    · intro hv
      obtain ⟨s, hs⟩ := sumLoop_ok hg (col := i) (colL := i) (l := L.columns.getD i []) (fun e he hne => hv e.1 (hrows e he hne).1 (hrows e he hne).2) (total := 0) hc
      rcases hx : sumLoop get i i (L.columns.getD i []) 0 cache with ⟨_ | s, cache'⟩
      · rw [hx] at hs; simp at hs
      · exact ⟨_, rfl⟩
  · rw [if_neg hc'] at hid
    rw [if_neg (by omega), hcol, diagInv_ok h hi]
    simp only
    constructor
    · intro hv v hr
      rcases hx : sumLoop get i j (L.columns.getD i []) 0 cache with ⟨_ | s, cache'⟩
      · rw [hx] at hr; simp at hr
      · rw [hx] at hr
        have hs := sumLoop_val hg (T := fun r => extend (covarianceOf L n) r j) (fun e he hne => hv e.1 (hrows e he hne).1 (hrows e he hne).2) hc (congrArg Prod.fst hx)
        simp only [Except.ok.injEq] at hr
        rw [hfilter, zero_add] at hs
        rw [← hs] at hid
        rw [← hr]
        field_simp
        linear_combination -hid
    · intro hv
      obtain ⟨s, hs⟩ := sumLoop_ok hg (col := i) (colL := j) (l := L.columns.getD i []) (fun e he hne => hv e.1 (hrows e he hne).1 (hrows e he hne).2) (total := 0) hc
      rcases hx : sumLoop get i j (L.columns.getD i []) 0 cache with ⟨_ | s, cache'⟩
      · rw [hx] at hs; simp at hs
      · exact ⟨_, rfl⟩

theorem getItem_symm (depth : Nat) (i j : Int) (cache : CovCache α) : c.getItem depth i j cache = c.getItem depth j i cache := by
  cases depth with
  | zero => rfl
  | succ depth =>
    unfold getItem
    rcases lt_trichotomy i j with h | h | h
    · rw [if_neg (by omega), if_pos (by omega)]
    · subst h; rfl
    · rw [if_pos (by omega), if_neg (by omega)]

/-- Every query keeps the cache good, and answers correctly if it answers and the smaller index is in range. -/
theorem getItem_good (h : IsTriangularFactor L n) : ∀ (depth : Nat) (i j : Int) (cache : CovCache α), GoodCache L n cache →
    GoodCache L n ((ofFactor L lay).getItem depth i j cache).2 ∧
    ∀ a b : Nat, i = a → j = b → a < n ∨ b < n → ∀ v, ((ofFactor L lay).getItem depth i j cache).1 = .ok v →
      v = extend (covarianceOf L n) a b := by
  intro depth
  induction depth with
  | zero => intro i j cache hc; exact ⟨hc, fun a b _ _ _ v hv => by simp [getItem] at hv⟩
  | succ depth ih =>
    suffices hs : ∀ (i j : Int) (cache : CovCache α), i ≤ j → GoodCache L n cache →
        GoodCache L n ((ofFactor L lay).getItem (depth + 1) i j cache).2 ∧
        ∀ a b : Nat, i = a → j = b → a < n → ∀ v, ((ofFactor L lay).getItem (depth + 1) i j cache).1 = .ok v →
          v = extend (covarianceOf L n) a b by
      intro i j cache hc
      rcases le_total i j with hij | hij
      · exact ⟨(hs i j cache hij hc).1, fun a b ha hb hab => (hs i j cache hij hc).2 a b ha hb (by omega)⟩
      · rw [getItem_symm]
        refine ⟨(hs j i cache hij hc).1, fun a b ha hb hab v hv => ?_⟩
        rw [extend_cov_symm]
        exact (hs j i cache hij hc).2 b a hb ha (by omega) v hv
    intro i j cache hij hc
    unfold getItem
    rw [if_neg (by omega)]
    simp only
    rcases hx : cache.get? (i, j) with _ | v
    · simp only
      have hg : ∀ i j cache, GoodCache L n cache → GoodCache L n ((ofFactor L lay).getItem depth i j cache).2 :=
        fun i j cache hc => (ih i j cache hc).1
      have hcg := compute_good (c := ofFactor L lay) hg i j hc
      have hval : ∀ a b : Nat, i = a → j = b → a < n → ∀ v, ((ofFactor L lay).compute ((ofFactor L lay).getItem depth) i j cache).1 = .ok v →
          v = extend (covarianceOf L n) a b := by
        rintro a b rfl rfl ha
        exact (compute_spec h hg ha (by omega) hc).1 fun r _ hr cache hc v hv => (ih r b cache hc).2 r b rfl rfl (.inl hr) v hv
      rcases hy : (ofFactor L lay).compute ((ofFactor L lay).getItem depth) i j cache with ⟨_ | v, cache'⟩
      · rw [hy] at hcg
        exact ⟨hcg, fun a b _ _ _ v hv => by simp at hv⟩
      · rw [hy] at hcg hval
        simp only at hcg hval ⊢
        refine ⟨fun a b hab ha w hw => ?_, hval⟩
        rw [PyDict.get?_set] at hw
        split at hw
        · rename_i heq
          injection heq with h1 h2
          injection hw with hw
          subst hw
          exact hval a b h1.symm h2.symm ha v rfl
        · exact hcg a b hab ha w hw
    · exact ⟨hc, fun a b ha hb han w hw => by subst ha hb; injection hw with hw; subst hw; exact hc a b (by omega) han v hx⟩

/-- The number of nested calls that suffices for `self[i, j]`. -/
theorem getItem_ok (h : IsTriangularFactor L n) : ∀ (depth i j : Nat) (cache : CovCache α), GoodCache L n cache → i < n → i ≤ j →
    (n - i) + (n - 1 - j) ≤ depth → ∃ v, ((ofFactor L lay).getItem depth (i : Int) (j : Int) cache).1 = .ok v := by
  intro depth
  induction depth with
  | zero => intro i j cache _ hi hij hd; omega
  | succ depth ih =>
    intro i j cache hc hi hij hd
    have hg : ∀ i j cache, GoodCache L n cache → GoodCache L n ((ofFactor L lay).getItem depth i j cache).2 :=
      fun i j cache hc => (getItem_good h depth i j cache hc).1
    unfold getItem
    rw [if_neg (by omega)]
    simp only
    rcases hx : cache.get? ((i : Int), (j : Int)) with _ | v
    · simp only
      obtain ⟨v, hv⟩ := (compute_spec (lay := lay) h hg hi hij hc).2 (by
        intro r hr hrn cache hc
        rcases le_total r j with hrj | hrj
        · exact ih r j cache hc hrn hrj (by omega)
        · rw [getItem_symm]
          exact ih j r cache hc (by omega) hrj (by omega))
      rcases hy : (ofFactor L lay).compute ((ofFactor L lay).getItem depth) i j cache with ⟨_ | v, cache'⟩
      · rw [hy] at hv; cases hv
      · exact ⟨_, rfl⟩
    · exact ⟨_, rfl⟩

theorem marginalRow_good {G : CovCache α → Prop} {depth : Nat} (hg : ∀ i j cache, G cache → G (c.getItem depth i j cache).2) (i : Int) :
    ∀ (js : List Int) (cache : CovCache α), G cache → G (c.marginalRow depth i js cache).2 := by
  intro js
  induction js with
  | nil => intro cache h; exact h
  | cons j js ih =>
    intro cache h
    unfold marginalRow
    have h1 := hg i j cache h
    rcases hx : c.getItem depth i j cache with ⟨_ | x, cache'⟩
    · rw [hx] at h1; exact h1
    · rw [hx] at h1
      have h2 := ih cache' h1
      simp only
      rcases hy : c.marginalRow depth i js cache' with ⟨_ | y, cache''⟩
      · rw [hy] at h2; exact h2
      · rw [hy] at h2; exact h2

theorem marginalRows_good {G : CovCache α → Prop} {depth : Nat} (hg : ∀ i j cache, G cache → G (c.getItem depth i j cache).2)
    (all : List Int) : ∀ (is : List Int) (cache : CovCache α), G cache → G (c.marginalRows depth all is cache).2 := by
  intro is
  induction is with
  | nil => intro cache h; exact h
  | cons i is ih =>
    intro cache h
    unfold marginalRows
    have h1 := marginalRow_good hg i all cache h
    rcases hx : c.marginalRow depth i all cache with ⟨_ | x, cache'⟩
    · rw [hx] at h1; exact h1
    · rw [hx] at h1
      have h2 := ih cache' h1
      simp only
      rcases hy : c.marginalRows depth all is cache' with ⟨_ | y, cache''⟩
      · rw [hy] at h2; exact h2
      · rw [hy] at h2; exact h2

theorem marginalRow_ok {G : CovCache α → Prop} {depth : Nat} (hg : ∀ i j cache, G cache → G (c.getItem depth i j cache).2) {i : Int}
    {T : Int → α} : ∀ {js : List Int}, (∀ j ∈ js, ∀ cache, G cache → (c.getItem depth i j cache).1 = .ok (T j)) →
    ∀ {cache : CovCache α}, G cache → (c.marginalRow depth i js cache).1 = .ok (js.map T) := by
  intro js
  induction js with
  | nil => intro _ cache h; rfl
  | cons j js ih =>
    intro hv cache h
    unfold marginalRow
    have h1 := hg i j cache h
    have h0 := hv j (by simp) cache h
    rcases hx : c.getItem depth i j cache with ⟨_ | x, cache'⟩
    · rw [hx] at h0; cases h0
    · rw [hx] at h1 h0
      have h2 := ih (fun j hj => hv j (by simp [hj])) h1
      injection h0 with h0
      simp only
      rcases hy : c.marginalRow depth i js cache' with ⟨_ | y, cache''⟩
      · rw [hy] at h2; cases h2
      · rw [hy] at h2; injection h2 with h2; simp [h2, h0]

theorem marginalRows_ok {G : CovCache α → Prop} {depth : Nat} (hg : ∀ i j cache, G cache → G (c.getItem depth i j cache).2)
    {T : Int → Int → α} {all : List Int} : ∀ {is : List Int}, (∀ i ∈ is, ∀ j ∈ all, ∀ cache, G cache → (c.getItem depth i j cache).1 = .ok (T i j)) →
    ∀ {cache : CovCache α}, G cache → (c.marginalRows depth all is cache).1 = .ok (is.map fun i => all.map (T i)) := by
  intro is
  induction is with
  | nil => intro _ cache h; rfl
  | cons i is ih =>
    intro hv cache h
    unfold marginalRows
    have h1 := marginalRow_good hg i all cache h
    have h0 := marginalRow_ok hg (hv i (by simp)) h
    rcases hx : c.marginalRow depth i all cache with ⟨_ | x, cache'⟩
    · rw [hx] at h0; cases h0
    · rw [hx] at h1 h0
      have h2 := ih (fun i hi => hv i (by simp [hi])) h1
      injection h0 with h0
      simp only
      rcases hy : c.marginalRows depth all is cache' with ⟨_ | y, cache''⟩
      · rw [hy] at h2; cases h2
      · rw [hy] at h2; injection h2 with h2; simp [h2, h0]

/-- What every query keeps, every history keeps. -/
theorem reachable_inv {c : SparseCovariance α} {G : CovCache α → Prop} (h0 : G .empty)
    (hg : ∀ depth i j cache, G cache → G (c.getItem depth i j cache).2) {cache : CovCache α} (hr : Reachable c cache) : G cache := by
  induction hr with
  | make => exact h0
  | getItem _ depth i j ih => exact hg depth i j _ ih
  | computeMarginal _ C depth vars ih =>
    unfold computeMarginal
    split
    · exact ih
    · exact marginalRows_good (hg depth) _ _ _ ih
  | asDense _ depth u ih =>
    unfold asDense
    split
    · split
      · exact ih
      · simp only
        split
        · exact ih
        · exact ih
    · exact marginalRows_good (hg depth) _ _ _ ih

/-- What storing a computed value keeps, every query keeps. -/
theorem getItem_inv {c : SparseCovariance α} {G : CovCache α → Prop}
    (hset : ∀ depth row col cache v cache', row ≤ col → G cache → cache.get? (row, col) = none →
      c.compute (c.getItem depth) row col cache = (.ok v, cache') → G cache' → G (cache'.set (row, col) v)) : ∀ depth i j cache, G cache → G (c.getItem depth i j cache).2 := by
  intro depth
  induction depth with
  | zero => intro i j cache h; exact h
  | succ depth ih =>
    suffices hs : ∀ (i j : Int) (cache : CovCache α), i ≤ j → G cache → G (c.getItem (depth + 1) i j cache).2 by
      intro i j cache hc
      rcases le_total i j with hij | hij
      · exact hs i j cache hij hc
      · rw [getItem_symm]; exact hs j i cache hij hc
    intro i j cache hij hc
    unfold getItem
    rw [if_neg (by omega)]
    simp only
    have h1 := compute_good (c := c) ih i j hc
    rcases hx : cache.get? (i, j) with _ | v
    · simp only
      rcases hy : c.compute (c.getItem depth) i j cache with ⟨_ | v, cache'⟩
      · rw [hy] at h1; exact h1
      · rw [hy] at h1; exact hset depth i j cache v cache' hij hc hx hy h1
    · exact hc

theorem reachable_good (h : IsTriangularFactor L n) {cache : CovCache α} (hr : Reachable (ofFactor L lay) cache) : GoodCache L n cache :=
  reachable_inv (by intro i j _ _ v hv; simp [PyDict.get?_empty] at hv) (fun depth i j cache hc => (getItem_good h depth i j cache hc).1) hr

theorem diagInv_too_large (h : IsTriangularFactor L n) {k : Nat} (hk : n ≤ k) : (ofFactor L lay).diagInv k = .error .index := by
  have hlen : (ofFactor L lay).lDiagInv.length = n := by simp [ofFactor, Csc.diagonal, h.shape]
  unfold diagInv pyIndex
  rw [hlen, if_neg (by omega), if_neg (by omega)]
  rfl

/-- No history stores an entry for two indices that are too large. -/
theorem reachable_none (h : IsTriangularFactor L n) {cache : CovCache α} (hr : Reachable (ofFactor L lay) cache) {i j : Nat} (hi : n ≤ i)
    (hij : i ≤ j) : cache.get? ((i : Int), (j : Int)) = none := by
  refine reachable_inv (G := fun cache => cache.get? ((i : Int), (j : Int)) = none) (by simp [PyDict.get?_empty]) ?_ hr
  refine getItem_inv fun depth row col cache v cache' _ _ _ hx hn => ?_
  rw [PyDict.get?_set]
  split
  · rename_i heq
    injection heq with h1 h2
    subst h1 h2
    exfalso
    unfold compute at hx
    simp only [diagInv_too_large (lay := lay) h hi, diagInv_too_large (lay := lay) h (hi.trans hij), ite_self] at hx
    injection hx with h1 _
    cases h1
  · exact hn

/-- The value that is computed for the row `i - n`, which Python counts from the end. -/
theorem compute_negative (h : IsTriangularFactor L n) (i j : Fin n) (depth : Nat) {cache : CovCache α} (hc : GoodCache L n cache) :
    (∀ v, ((ofFactor L lay).compute ((ofFactor L lay).getItem depth) ((i : Int) - n) j cache).1 = .ok v →
      v = -((cscMatrix L n)⁻¹ i j / cscMatrix L n i i)) ∧
    (2 * n ≤ depth + i + j + 1 → ∃ v, ((ofFactor L lay).compute ((ofFactor L lay).getItem depth) ((i : Int) - n) j cache).1 = .ok v) := by
  have hg : ∀ i j cache, GoodCache L n cache → GoodCache L n ((ofFactor L lay).getItem depth i j cache).2 :=
    fun i j cache hc => (getItem_good h depth i j cache hc).1
  have hlen : (ofFactor L lay).lDiagInv.length = n := by simp [ofFactor, Csc.diagonal, h.shape]
  have hidx : pyIndex n ((i : Int) - n) = .ok i := by
    unfold pyIndex
    rw [if_neg (by omega), if_pos (by omega)]
    simp
  have hdiag : (ofFactor L lay).diagInv ((i : Int) - n) = .ok (1 / cscMatrix L n i i) := by
    rw [← diagInv_ok (lay := lay) h i.2]
    unfold diagInv
    rw [hlen, hidx, pyIndex_nat i.2]
  have hcol : (ofFactor L lay).L.getcol ((i : Int) - n) = .ok (L.columns.getD i []) := by
    unfold Csc.getcol
    change pyIndex L.shape.2 _ >>= _ = _
    rw [h.shape, hidx]
    rfl
  have hf : ((L.columns.getD i []).filter fun e => (e.1 : Int) ≠ (i : Int) - n) = L.columns.getD i [] := by
    rw [List.filter_eq_self]
    intro e he
    simp; omega
  have hin : ∀ e ∈ L.columns.getD i [], i ≤ e.1 ∧ e.1 < n := fun e he => h.lower i i.2 e he
  unfold compute sumOverCol
  rw [if_neg (by omega), hdiag, hcol]
  simp only
  constructor
  · intro v hv
    rcases hx : sumLoop ((ofFactor L lay).getItem depth) ((i : Int) - n) j (L.columns.getD i []) 0 cache with ⟨_ | x, cache'⟩
    · rw [hx] at hv; simp at hv
    · have hs' := sumLoop_val hg (T := fun r => extend (covarianceOf L n) r j)
        (fun e he _ cache hc v hv => (getItem_good h depth e.1 j cache hc).2 e.1 j rfl rfl (.inl (hin e he).2) v hv) hc (v := x) (by rw [hx])
      rw [hf, zero_add, sum_column h i fun r => extend (covarianceOf L n) r j] at hs'
      have h1 := congrFun (congrFun (transpose_mul_cov h) i) j
      rw [mul_apply] at h1
      simp only [extend_of] at hs'
      simp only [transpose_apply] at h1
      rw [h1] at hs'
      rw [hx] at hv
      simp only at hv
      injection hv with hv
      rw [← hv, hs']
      ring
  · intro hd
    obtain ⟨s, hs⟩ := sumLoop_ok hg (col := (i : Int) - n) (colL := j) (l := L.columns.getD i []) (total := 0)
      (fun e he _ cache hc => by
        have := hin e he
        obtain ⟨v, hv⟩ : ∃ v, ((ofFactor L lay).getItem depth (e.1 : Int) (j : Int) cache).1 = .ok v := by
          rcases le_total e.1 (j : Nat) with hij | hij
          · exact getItem_ok h depth e.1 j cache hc this.2 hij (by omega)
          · rw [getItem_symm]
            exact getItem_ok h depth j e.1 cache hc j.2 hij (by omega)
        exact ⟨v, hv⟩) hc
    rcases hx : sumLoop ((ofFactor L lay).getItem depth) ((i : Int) - n) j (L.columns.getD i []) 0 cache with ⟨_ | x, cache'⟩
    · rw [hx] at hs; cases hs
    · exact ⟨_, rfl⟩

/-- What the cache holds for a row that Python counts from the end. -/
theorem reachable_negative (h : IsTriangularFactor L n) {cache : CovCache α} (hr : Reachable (ofFactor L lay) cache) (i j : Fin n) {v : α}
    (hv : cache.get? ((i : Int) - n, (j : Int)) = some v) : v = -((cscMatrix L n)⁻¹ i j / cscMatrix L n i i) := by
  refine (reachable_inv (G := fun cache => GoodCache L n cache ∧ ∀ v, cache.get? ((i : Int) - n, (j : Int)) = some v →
    v = -((cscMatrix L n)⁻¹ i j / cscMatrix L n i i)) ⟨by intro i j _ _ v hv; simp [PyDict.get?_empty] at hv, by simp [PyDict.get?_empty]⟩ ?_ hr).2
    v hv
  refine getItem_inv fun depth row col cache v cache' hle hG hnone hx hG' => ⟨?_, ?_⟩
  · have h1 := (getItem_good (lay := lay) h (depth + 1) row col cache hG.1).1
    unfold getItem at h1
    rw [if_neg (by omega)] at h1
    simpa only [hnone, hx] using h1
  · intro w hw
    rw [PyDict.get?_set] at hw
    split at hw
    · rename_i heq
      injection heq with h1 h2
      subst h1 h2
      injection hw with hw
      subst hw
      exact (compute_negative (lay := lay) h i j depth hG.1).1 _ (by rw [hx])
    · exact hG'.2 w hw

/-- The value of a query in range. -/
theorem getItem_eq (h : IsTriangularFactor L n) {cache : CovCache α} (hc : GoodCache L n cache) {depth i j : Nat} (hi : i < n) (hj : j < n)
    (hd : 2 * n ≤ depth + i + j + 1) : ((ofFactor L lay).getItem depth i j cache).1 = .ok (extend (covarianceOf L n) i j) := by
  have : ∃ v, ((ofFactor L lay).getItem depth (i : Int) (j : Int) cache).1 = .ok v := by
    rcases le_total i j with hij | hij
    · exact getItem_ok h depth i j cache hc hi hij (by omega)
    · rw [getItem_symm]
      exact getItem_ok h depth j i cache hc hj hij (by omega)
  obtain ⟨v, hv⟩ := this
  rw [hv, (getItem_good h depth i j cache hc).2 i j rfl rfl (.inl hi) v hv]

theorem marginalIdx_eq (h : IsTriangularFactor L n) {cache : CovCache α} (hc : GoodCache L n cache) {depth : Nat} (hd : 2 * n ≤ depth + 1)
    {idx : List Nat} (hi : ∀ i ∈ idx, i < n) : ((ofFactor L lay).computeMarginalIdx depth (idx.map fun (i : Nat) => (i : Int)) cache).1 =
      .ok (idx.map fun i => idx.map fun j => extend (covarianceOf L n) i j) := by
  unfold computeMarginalIdx
  rw [marginalRows_ok (G := GoodCache L n) (fun i j cache hc => (getItem_good h depth i j cache hc).1)
    (T := fun i j => extend (covarianceOf L n) i.toNat j.toNat) _ hc]
  · simp
  · intro i hi' j hj' cache hc
    obtain ⟨i, hi1, rfl⟩ := List.mem_map.1 hi'
    obtain ⟨j, hj1, rfl⟩ := List.mem_map.1 hj'
    exact getItem_eq h hc (hi i hi1) (hi j hj1) (by omega)

end algorithm

/-- The indices of the variables' local coordinates. -/
theorem marginalIndices_eq {β : Type _} {C : Ty → VarClass β} {lay : Layout} {start : Var → Nat} :
    ∀ {vars : List Var}, (∀ v ∈ vars, lay.indexFromVar.get? v = some (start v)) →
    marginalIndices C lay vars = .ok ((vars.flatMap fun v => (List.range (C v.ty).localDim).map fun k => start v + k).map fun (i : Nat) => (i : Int)) := by
  intro vars
  unfold marginalIndices
  suffices ∀ acc : List Int, (∀ v ∈ vars, lay.indexFromVar.get? v = some (start v)) →
      vars.foldlM (fun indices v => do
        let start ← lay.indexFromVar.get v
        return indices ++ (List.range (C v.ty).localDim).map fun k => ((start + k : Nat) : Int)) acc =
      (.ok (acc ++ (vars.flatMap fun v => (List.range (C v.ty).localDim).map fun k => start v + k).map fun (i : Nat) => (i : Int)) : Py (List Int)) by
    intro h; rw [this [] h, List.nil_append]
  induction vars with
  | nil => intro acc _; simp
  | cons v vars ih =>
    intro acc h
    rw [List.foldlM_cons, PyDict.get_ok_of (h v (by simp)), py_bind_ok]
    refine (ih _ fun v hv => h v (by simp [hv])).trans ?_
    simp [List.map_map, Function.comp_def]

theorem marginalIndices_error {β : Type _} {C : Ty → VarClass β} {lay : Layout} {vars : List Var} (h : ∃ v ∈ vars, lay.indexFromVar.get? v = none) :
    marginalIndices C lay vars = .error .key := by
  unfold marginalIndices
  generalize ([] : List Int) = acc
  induction vars generalizing acc with
  | nil => simp at h
  | cons v vars ih =>
    rw [List.foldlM_cons]
    cases hv : lay.indexFromVar.get? v with
    | none => rw [PyDict.get_error_of (PyDict.get?_eq_none_iff.1 hv)]; rfl
    | some s =>
      rw [PyDict.get_ok_of hv]
      simp only [py_bind_ok, py_pure]
      apply ih
      obtain ⟨w, hw, h'⟩ := h
      rcases List.mem_cons.1 hw with rfl | hw
      · rw [hv] at h'; cases h'
      · exact ⟨w, hw, h'⟩

end Jaxfg
