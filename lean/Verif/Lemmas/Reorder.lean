/- Vectors, products and linear systems in another order. -/
import Verif.Lemmas.CgSolve
import Verif.Lemmas.DoglegStep
import Verif.Spec.Order
import Mathlib.Data.List.Perm.Basic
import Mathlib.Data.Matrix.Basic

namespace Jaxfg
open Matrix hiding vec
open Spec

/-! ### Permuted vectors -/

section
variable {m n : Nat} {ρ : Equiv.Perm (Fin m)} {σ : Equiv.Perm (Fin n)} {x x' y y' : List ℝ}

theorem Spec.Permuted.map (h : Permuted σ x x') (f : ℝ → ℝ) : Permuted σ (x.map f) (x'.map f) :=
  ⟨by simp [h.len], by simp [h.len'], by
    funext i
    rw [Function.comp, vec_map h.len', vec_map h.len, h.entry]; rfl⟩

theorem Spec.Permuted.zipWith (h : Permuted σ x x') (h2 : Permuted σ y y') (f : ℝ → ℝ → ℝ) :
    Permuted σ (List.zipWith f x y) (List.zipWith f x' y') :=
  ⟨by simp [h.len, h2.len], by simp [h.len', h2.len'], by
    funext i
    rw [Function.comp, vec_zipWith h.len' h2.len', vec_zipWith h.len h2.len, h.entry, h2.entry]; rfl⟩

theorem Spec.Permuted.vdot (h : Permuted σ x x') (h2 : Permuted σ y y') : Jaxfg.vdot x' y' = Jaxfg.vdot x y := by
  rw [vdot_eq h.len' h2.len', vdot_eq h.len h2.len, h.entry, h2.entry]
  exact comp_equiv_dotProduct_comp_equiv _ _ σ

theorem permuted_zero (σ : Equiv.Perm (Fin n)) : Permuted σ (List.replicate n 0) (List.replicate n 0) :=
  ⟨by simp, by simp, by funext i; rw [Function.comp, vec_eq (by simp), vec_eq (by simp)]; simp⟩

/-- Only one list is a permuted copy. -/
theorem Spec.Permuted.unique (h : Permuted σ x x') (h2 : Permuted σ x y) : x' = y :=
  ext_vec h.len' h2.len' (by rw [h.entry, h2.entry])

variable {A A' : Coo ℝ}

theorem submatrix_mulVec (M : Matrix (Fin m) (Fin n) ℝ) (v : Fin n → ℝ) : M.submatrix ρ σ *ᵥ (v ∘ σ) = (M *ᵥ v) ∘ ρ := by
  rw [submatrix_mulVec_equiv]
  funext i
  simp [mulVec, dotProduct]

theorem Spec.Reordered.matmul (h : Reordered ρ σ A A') (hx : Permuted σ x x') (hy : A.matmul x = .ok y) :
    ∃ y', A'.matmul x' = .ok y' ∧ Permuted ρ y y' := by
  obtain ⟨k1, k2, k3⟩ := matmul_vec h.wf hy
  obtain ⟨y', e1, e2, e3⟩ := matmul_ok h.wf' (x := x') (by rw [hx.len', h.shape'])
  rw [h.shape] at k2 k3
  rw [h.shape'] at e2 e3
  refine ⟨y', e1, k2, e2, ?_⟩
  have : vec y' m = (cooMatrix A m n).submatrix ρ σ *ᵥ (vec x n ∘ σ) := by rw [← h.matrix, ← hx.entry]; exact e3
  rw [this, submatrix_mulVec, ← (show vec y m = _ from k3)]

theorem Spec.Reordered.T (h : Reordered ρ σ A A') : Reordered σ ρ A.T A'.T where
  wf := Props.cooWF_T h.wf
  wf' := Props.cooWF_T h.wf'
  shape := by show (A.shape.2, A.shape.1) = _; rw [h.shape]
  shape' := by show (A'.shape.2, A'.shape.1) = _; rw [h.shape']
  matrix := by rw [Props.cooMatrix_T, Props.cooMatrix_T, h.matrix]; rfl

end

/-! ### Linear solvers -/

open Classical in
/-- What a solve with a new CHOLMOD factor returns. -/
theorem cholmodSolve_eq (stale : Pattern → ScipyCoo ℝ → ℝ → List ℝ → Py (List ℝ)) (addr : Nat) {m n : Nat} {A : Coo ℝ} (hA : CooWF A)
    (hs : A.shape = (m, n)) {b : List ℝ} (hb : b.length = n) (l : ℝ) :
    (cholmodSolve stale .empty addr A b l).1 =
      if (normalMatrix (cooMatrix A m n) (l + 1 / 100000)).PosDef then
        .ok (List.ofFn ((normalMatrix (cooMatrix A m n) (l + 1 / 100000))⁻¹ *ᵥ vec b n)) else .error .value := by
  obtain ⟨vs, rs, cs, sh⟩ := A
  simp only at hs
  subst hs
  unfold cholmodSolve
  rw [asScipy_ok (Props.cooWF_T hA)]
  have hc : (PyDict.empty : CholmodCache).get? addr = none := rfl
  simp only [cholmodAnalysis, hc]
  unfold cholmodFactorSolve
  rw [if_pos rfl, if_neg (by simpa [Coo.T] using hb)]
  have hN : cooMatrix (Coo.T ⟨vs, rs, cs, (m, n)⟩) n m * (cooMatrix (Coo.T ⟨vs, rs, cs, (m, n)⟩) n m)ᵀ + (l + 1 / 100000) • 1 =
      normalMatrix (cooMatrix ⟨vs, rs, cs, (m, n)⟩ m n) (l + 1 / 100000) := by
    rw [Props.cooMatrix_T, transpose_transpose]; rfl
  rw [← hN]
  rfl

theorem normalMatrix_submatrix {m n : Nat} (ρ : Equiv.Perm (Fin m)) (σ : Equiv.Perm (Fin n)) (M : Matrix (Fin m) (Fin n) ℝ) (β : ℝ) :
    normalMatrix (M.submatrix ρ σ) β = (normalMatrix M β).submatrix σ σ := by
  unfold normalMatrix
  rw [transpose_submatrix, submatrix_mul_equiv, submatrix_add]
  congr 1
  show β • 1 = β • (1 : Matrix (Fin n) (Fin n) ℝ).submatrix σ σ
  rw [submatrix_one_equiv]

theorem cholmod_orderFree (stale : Pattern → ScipyCoo ℝ → ℝ → List ℝ → Py (List ℝ)) (addr : Nat) :
    OrderFree fun A b l _ => (cholmodSolve stale .empty addr A b l).1 := by
  classical
  intro m n ρ σ A A' b b' x l i h hb hx
  simp only at hx ⊢
  rw [cholmodSolve_eq stale addr h.wf h.shape hb.len] at hx
  rw [cholmodSolve_eq stale addr h.wf' h.shape' hb.len', h.matrix, normalMatrix_submatrix]
  generalize normalMatrix (cooMatrix A m n) (l + 1 / 100000) = H at hx ⊢
  by_cases hH : H.PosDef
  · rw [if_pos hH] at hx
    cases hx
    rw [if_pos ((hH.submatrix σ.injective))]
    refine ⟨_, rfl, by simp, by simp, ?_⟩
    have e : ∀ f : Fin n → ℝ, vec (List.ofFn f) n = f := fun f => vec_ofVec f
    rw [e, e, hb.entry, inv_submatrix_equiv, submatrix_mulVec]
  · rw [if_neg hH] at hx
    cases hx

theorem cgBody_perm {n : Nat} {σ : Equiv.Perm (Fin n)} {op op' : List ℝ → Py (List ℝ)} {M M' : List ℝ → List ℝ}
    (hop : ∀ {x x' y}, Permuted σ x x' → op x = .ok y → ∃ y', op' x' = .ok y' ∧ Permuted σ y y')
    (hM : ∀ {x x'}, Permuted σ x x' → Permuted σ (M x) (M' x')) {s s' t : CgState} (hx : Permuted σ s.x s'.x)
    (hr : Permuted σ s.r s'.r) (hg : s'.gamma = s.gamma) (hp : Permuted σ s.p s'.p) (h : cgBody op M s = .ok t) :
    ∃ t', cgBody op' M' s' = .ok t' ∧ Permuted σ t.x t'.x ∧ Permuted σ t.r t'.r ∧ t'.gamma = t.gamma ∧ Permuted σ t.p t'.p := by
  unfold cgBody at h ⊢
  simp only [py_bind_eq_ok, py_return_eq_ok] at h ⊢
  obtain ⟨Ap, h1, rfl⟩ := h
  obtain ⟨Ap', h2, h3⟩ := hop hp h1
  have ha : s'.gamma / vdot s'.p Ap' = s.gamma / vdot s.p Ap := by rw [hg, hp.vdot h3]
  have hr' := hr.zipWith (h3.map (s.gamma / vdot s.p Ap * ·)) (· - ·)
  have hz := hM hr'
  have hgam := hr'.vdot hz
  refine ⟨_, ⟨Ap', h2, rfl⟩, ?_, ?_, ?_, ?_⟩
  · simp only [ha]; exact hx.zipWith (hp.map _) _
  · simp only [ha]; exact hr'
  · simp only [ha]; exact hgam
  · simp only [ha]
    rw [hgam, hg]
    exact hz.zipWith (hp.map _) _

theorem cgLoop_perm {n : Nat} {σ : Equiv.Perm (Fin n)} {op op' : List ℝ → Py (List ℝ)} {M M' : List ℝ → List ℝ} (atol2 : ℝ)
    (hop : ∀ {x x' y}, Permuted σ x x' → op x = .ok y → ∃ y', op' x' = .ok y' ∧ Permuted σ y y')
    (hM : ∀ {x x'}, Permuted σ x x' → Permuted σ (M x) (M' x')) (k : Nat) {s s' t : CgState} (hx : Permuted σ s.x s'.x)
    (hr : Permuted σ s.r s'.r) (hg : s'.gamma = s.gamma) (hp : Permuted σ s.p s'.p) (h : cgLoop op M atol2 k s = .ok t) :
    ∃ t', cgLoop op' M' atol2 k s' = .ok t' ∧ Permuted σ t.x t'.x := by
  induction k generalizing s s' with
  | zero =>
    unfold cgLoop at h ⊢
    cases h
    exact ⟨s', rfl, hx⟩
  | succ k ih =>
    unfold cgLoop at h ⊢
    rw [hr.vdot hr]
    by_cases hc : atol2 < vdot s.r s.r
    · rw [if_pos hc] at h ⊢
      simp only [py_bind_eq_ok] at h ⊢
      obtain ⟨u, h1, h2⟩ := h
      obtain ⟨u', k1, k2, k3, k4, k5⟩ := cgBody_perm hop hM hx hr hg hp h1
      obtain ⟨t', k6, k7⟩ := ih k2 k3 k4 k5 h2
      exact ⟨t', ⟨u', k1, k6⟩, k7⟩
    · rw [if_neg hc] at h ⊢
      cases h
      exact ⟨s', rfl, hx⟩

theorem cg_perm {n : Nat} {σ : Equiv.Perm (Fin n)} {op op' : List ℝ → Py (List ℝ)} {M M' : List ℝ → List ℝ} {b b' x0 x0' x : List ℝ}
    (hop : ∀ {x x' y}, Permuted σ x x' → op x = .ok y → ∃ y', op' x' = .ok y' ∧ Permuted σ y y')
    (hM : ∀ {x x'}, Permuted σ x x' → Permuted σ (M x) (M' x')) (hb : Permuted σ b b') (h0 : Permuted σ x0 x0') (k : Nat) (tol : ℝ)
    (h : cg op b x0 k tol M = .ok x) : ∃ x', cg op' b' x0' k tol M' = .ok x' ∧ Permuted σ x x' := by
  unfold cg at h ⊢
  simp only [py_bind_eq_ok, py_return_eq_ok] at h ⊢
  obtain ⟨y, h1, s, h2, rfl⟩ := h
  obtain ⟨y', h3, h4⟩ := hop h0 h1
  have hr := hb.zipWith h4 (· - ·)
  have hp := hM hr
  rw [hb.vdot hb]
  obtain ⟨t', h5, h6⟩ := cgLoop_perm _ hop hM k (s' := ⟨x0', List.zipWith (· - ·) b' y', _, M' (List.zipWith (· - ·) b' y')⟩)
    h0 hr (hr.vdot hp) hp h2
  exact ⟨t'.x, ⟨y', h3, t', h5, rfl⟩, h6⟩

/-- Without repeated positions, the sums of squares of the listed values are those of the columns of the matrix. -/
theorem colSquares_distinct {A : Coo ℝ} {m n : Nat} (hA : CooWF A) (hs : A.shape = (m, n)) (hn : (A.rows.zip A.cols).Nodup) (j : Fin n) :
    colSquares A n j = ∑ i, cooMatrix A m n i j ^ 2 := by
  have hpos : (entries A).map (fun e => (e.1, e.2.1)) = A.rows.zip A.cols := by
    obtain ⟨h1, h2, -, -⟩ := hA
    apply List.ext_getElem
    · simp [entries, h1, h2]
    · intro i h3 h4; simp [entries]
  have hrow : ∀ e ∈ entries A, e.1 < m := by
    intro e he
    have := hA.2.2.1 e.1 (List.of_mem_zip he).1
    rwa [hs] at this
  rw [← hpos] at hn
  unfold colSquares cooMatrix
  generalize entries A = E at hn hrow
  clear hpos
  induction E with
  | nil => simp
  | cons e E ih =>
    obtain ⟨h1, h2⟩ := List.nodup_cons.1 hn
    have ih := ih h2 fun e' he' => hrow e' (by simp [he'])
    obtain ⟨r, c, v⟩ := e
    by_cases hc : c = j.val
    · subst hc
      have hr : r < m := hrow _ List.mem_cons_self
      rw [List.filter_cons_of_pos (by simp), List.map_cons, List.sum_cons, ih, ← Finset.add_sum_erase _ _ (Finset.mem_univ (⟨r, hr⟩ : Fin m)),
        ← Finset.add_sum_erase _ _ (Finset.mem_univ (⟨r, hr⟩ : Fin m))]
      have hz : E.filter (fun e => e.1 = r ∧ e.2.1 = j.val) = [] := by
        rw [List.filter_eq_nil_iff]
        intro e' he' h
        simp only [decide_eq_true_eq] at h
        exact h1 (List.mem_map.2 ⟨e', he', by simp [h]⟩)
      simp only [hz, List.map_nil, List.sum_nil, decide_true, and_self, List.filter_cons_of_pos, List.map_cons, List.sum_cons]
      rw [add_zero, zero_pow two_ne_zero, zero_add]
      congr 1
      apply Finset.sum_congr rfl
      intro i hi
      have : ¬ r = i.val := fun h => (Finset.ne_of_mem_erase hi) (Fin.ext h.symm)
      rw [List.filter_cons_of_neg (by simp [this])]
    · rw [List.filter_cons_of_neg (by simpa using hc), ih]
      apply Finset.sum_congr rfl
      intro i _
      rw [List.filter_cons_of_neg (by simp [hc])]

theorem cg_orderFree (tol : Nat → ℝ) : OrderFreeDistinct fun A b l i => cgSolve A b l (tol i) := by
  intro m n ρ σ A A' b b' x l i h hn hn' hb hx
  simp only [cgSolve] at hx ⊢
  rw [hb.len] at hx
  rw [hb.len']
  have hd : Permuted σ (ataDiagonals A n) (ataDiagonals A' n) := by
    refine ⟨(ataDiagonals_ok h.wf n).1, (ataDiagonals_ok h.wf' n).1, ?_⟩
    rw [(ataDiagonals_ok h.wf n).2, (ataDiagonals_ok h.wf' n).2]
    funext j
    rw [colSquares_distinct h.wf' h.shape' hn', Function.comp, colSquares_distinct h.wf h.shape hn, h.matrix]
    exact Equiv.sum_comp ρ fun i => cooMatrix A m n i (σ j) ^ 2
  simp only [List.length_replicate] at hx ⊢
  refine cg_perm (fun {x x' y} hx hy => ?_) (fun {x x'} hx => hx.zipWith hd _) hb (permuted_zero σ) n _ hx
  unfold ataFunction at hy ⊢
  simp only [py_bind_eq_ok, py_return_eq_ok] at hy ⊢
  obtain ⟨u, h1, w, h2, rfl⟩ := hy
  obtain ⟨u', h3, h4⟩ := h.matmul hx h1
  obtain ⟨w', h5, h6⟩ := h.T.matmul h4 h2
  exact ⟨_, ⟨u', h3, w', h5, rfl⟩, h6.zipWith ((hd.map _).zipWith hx _) _⟩

end Jaxfg
