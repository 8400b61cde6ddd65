/- Rounding errors of sums and products. -/
import Verif.Spec.Rounding
import Verif.Lemmas.Sparse

namespace Jaxfg
open Spec
open Ext (fin)

variable {P : Precision} {S : Type} [Scal S] {val : S → Ext}

theorem rounds_fin {x z : ℝ} (h : Rounds P x (fin z)) : |z - x| ≤ P.u * |x| + P.η := by
  rcases h with ⟨z', h, h2, _⟩ | ⟨_, h⟩ | ⟨_, h⟩
  · cases h; exact h2
  · cases h
  · cases h

theorem rounds_small {x : ℝ} {e : Ext} (h : Rounds P x e) (hM : |x| ≤ P.M) : ∃ z, e = fin z := by
  rcases h with ⟨z, h, _⟩ | ⟨h, _⟩ | ⟨h, _⟩
  · exact ⟨z, h⟩
  · linarith [le_abs_self x]
  · linarith [neg_abs_le x]

/-- A finite result comes from finite arguments. -/
theorem add_fin_inv (hS : IsFloat P S val) {a b : S} (h : IsFinite val (a + b)) : IsFinite val a ∧ IsFinite val b := by
  obtain ⟨z, h⟩ := h
  have h1 := hS.add a b
  rw [h] at h1
  rcases ha : val a with x | _ | _ | _ <;> rcases hb : val b with y | _ | _ | _ <;> rw [ha, hb] at h1 <;>
    simp_all [Ext.add, RoundsTo, IsFinite]

theorem mul_fin_inv (hS : IsFloat P S val) {a b : S} (h : IsFinite val (a * b)) : IsFinite val a ∧ IsFinite val b := by
  obtain ⟨z, h⟩ := h
  have h1 := hS.mul a b
  rw [h] at h1
  rcases ha : val a with x | _ | _ | _ <;> rcases hb : val b with y | _ | _ | _ <;> rw [ha, hb] at h1 <;>
    simp only [Ext.mul, Ext.infMul, Ext.neg, RoundsTo] at h1 <;> (try split_ifs at h1) <;> simp_all [IsFinite]

theorem add_err (hS : IsFloat P S val) {a b : S} (h : IsFinite val (a + b)) :
    |num val (a + b) - (num val a + num val b)| ≤ P.u * |num val a + num val b| + P.η := by
  obtain ⟨⟨x, hx⟩, y, hy⟩ := add_fin_inv hS h
  obtain ⟨z, hz⟩ := h
  have h1 := hS.add a b
  rw [hx, hy, hz] at h1
  simp only [num, hx, hy, hz, Ext.toReal]
  exact rounds_fin h1

theorem mul_err (hS : IsFloat P S val) {a b : S} (h : IsFinite val (a * b)) :
    |num val (a * b) - num val a * num val b| ≤ P.u * |num val a * num val b| + P.η := by
  obtain ⟨⟨x, hx⟩, y, hy⟩ := mul_fin_inv hS h
  obtain ⟨z, hz⟩ := h
  have h1 := hS.mul a b
  rw [hx, hy, hz] at h1
  simp only [num, hx, hy, hz, Ext.toReal]
  exact rounds_fin h1

theorem add_finite (hS : IsFloat P S val) {a b : S} (ha : IsFinite val a) (hb : IsFinite val b)
    (h : |num val a + num val b| ≤ P.M) : IsFinite val (a + b) := by
  obtain ⟨x, hx⟩ := ha
  obtain ⟨y, hy⟩ := hb
  have h1 := hS.add a b
  rw [hx, hy] at h1
  simp only [num, hx, hy, Ext.toReal] at h
  exact rounds_small h1 h

theorem mul_finite (hS : IsFloat P S val) {a b : S} (ha : IsFinite val a) (hb : IsFinite val b)
    (h : |num val a * num val b| ≤ P.M) : IsFinite val (a * b) := by
  obtain ⟨x, hx⟩ := ha
  obtain ⟨y, hy⟩ := hb
  have h1 := hS.mul a b
  rw [hx, hy] at h1
  simp only [num, hx, hy, Ext.toReal] at h
  exact rounds_small h1 h

theorem num_zero (hS : IsFloat P S val) : num val 0 = 0 := by simp [num, hS.zero, Ext.toReal]

theorem finite_zero (hS : IsFloat P S val) : IsFinite val (0 : S) := ⟨0, hS.zero⟩

theorem abs_list_sum_le (l : List ℝ) : |l.sum| ≤ (l.map fun x => |x|).sum := by
  induction l with
  | nil => simp
  | cons a l ih => simpa using (abs_add_le a l.sum).trans (by linarith)

/-- One entry of a product: the sum over the entries of a row, in the order in which they are listed. -/
def rowFold (ps : List (S × S)) : S := ps.foldl (fun s p => s + p.1 * p.2) 0

theorem pow_ge_one (P : Precision) (n : Nat) : 1 ≤ (1 + P.u) ^ n := one_le_pow₀ (by linarith [P.u_nonneg])

theorem rowFold_err (hS : IsFloat P S val) (ps : List (S × S)) :
    (IsFinite val (rowFold ps) → (∀ p ∈ ps, IsFinite val p.1 ∧ IsFinite val p.2) ∧
      |num val (rowFold ps) - (ps.map fun p => num val p.1 * num val p.2).sum| ≤
        ((1 + P.u) ^ (ps.length + 1) - 1) * (ps.map fun p => |num val p.1| * |num val p.2|).sum +
          2 * ps.length * (1 + P.u) ^ ps.length * P.η) ∧
    ((∀ p ∈ ps, IsFinite val p.1 ∧ IsFinite val p.2) →
      (1 + P.u) ^ (ps.length + 1) * (ps.map fun p => |num val p.1| * |num val p.2|).sum +
          2 * ps.length * (1 + P.u) ^ ps.length * P.η ≤ P.M → IsFinite val (rowFold ps)) := by
  induction ps using List.reverseRecOn with
  | nil =>
    refine ⟨fun _ => ⟨by simp, ?_⟩, fun _ _ => finite_zero hS⟩
    simp [rowFold, num_zero hS]
  | append_singleton ps p ih =>
    obtain ⟨ih1, ih2⟩ := ih
    have hu := P.u_nonneg
    have hη := P.η_nonneg
    have hfold : rowFold (ps ++ [p]) = rowFold ps + p.1 * p.2 := by simp [rowFold]
    have hT : 0 ≤ (ps.map fun p => |num val p.1| * |num val p.2|).sum :=
      List.sum_nonneg (by simp only [List.mem_map, forall_exists_index, and_imp]; rintro _ q _ rfl; positivity)
    have hST : |(ps.map fun p => num val p.1 * num val p.2).sum| ≤ (ps.map fun p => |num val p.1| * |num val p.2|).sum := by
      refine (abs_list_sum_le _).trans (le_of_eq ?_)
      rw [List.map_map]
      congr 1
      apply List.map_congr_left
      intro q _
      simp [abs_mul]
    rw [hfold]
    simp only [List.map_append, List.map_cons, List.map_nil, List.sum_append, List.sum_cons, List.sum_nil, add_zero,
      List.length_append, List.length_cons, List.length_nil, Nat.zero_add]
    obtain ⟨T, hTe⟩ : ∃ T, T = (ps.map fun p => |num val p.1| * |num val p.2|).sum := ⟨_, rfl⟩
    obtain ⟨E, hEe⟩ : ∃ E, E = (ps.map fun p => num val p.1 * num val p.2).sum := ⟨_, rfl⟩
    rw [← hTe] at hT hST ih1 ih2 ⊢
    rw [← hEe] at hST ih1 ⊢
    obtain ⟨n, hn⟩ : ∃ n, n = ps.length := ⟨_, rfl⟩
    rw [← hn] at ih1 ih2 ⊢
    obtain ⟨w, hw⟩ : ∃ w, w = (1 + P.u) ^ n := ⟨_, rfl⟩
    have hw1 : 1 ≤ w := hw ▸ pow_ge_one P n
    have e1 : (1 + P.u) ^ (n + 1) = (1 + P.u) * w := by rw [hw]; ring
    have e2 : (1 + P.u) ^ (n + 1 + 1) = (1 + P.u) ^ 2 * w := by rw [hw]; ring
    rw [e1, ← hw] at ih1 ih2
    rw [e1, e2]
    have hn0 : (0 : ℝ) ≤ n := n.cast_nonneg
    obtain ⟨q, hq⟩ : ∃ q, q = |num val p.1| * |num val p.2| := ⟨_, rfl⟩
    rw [← hq]
    have hq0 : 0 ≤ q := hq ▸ by positivity
    have hqe : |num val p.1 * num val p.2| = q := by rw [hq, abs_mul]
    push_cast
    constructor
    · intro hf
      obtain ⟨f1, f2⟩ := add_fin_inv hS hf
      obtain ⟨g1, g2⟩ := ih1 f1
      have a1 := add_err hS hf
      have a2 := mul_err hS f2
      have f3 := mul_fin_inv hS f2
      refine ⟨by simp only [List.mem_append, List.mem_singleton]; rintro r (hr | rfl); exacts [g1 r hr, f3], ?_⟩
      rw [hqe] at a2
      obtain ⟨s, hs⟩ : ∃ s, s = num val (rowFold ps) := ⟨_, rfl⟩
      obtain ⟨t, ht⟩ : ∃ t, t = num val (p.1 * p.2) := ⟨_, rfl⟩
      obtain ⟨z, hz⟩ : ∃ z, z = num val (rowFold ps + p.1 * p.2) := ⟨_, rfl⟩
      obtain ⟨y, hy⟩ : ∃ y, y = num val p.1 * num val p.2 := ⟨_, rfl⟩
      rw [← hs, ← ht, ← hz] at a1
      rw [← ht, ← hy] at a2
      rw [← hs] at g2
      rw [← hz, ← hy]
      rw [← hy] at hqe
      have b1 : |z - (E + y)| ≤ |z - (s + t)| + |s - E| + |t - y| := by
        have : z - (E + y) = (z - (s + t)) + (s - E) + (t - y) := by ring
        rw [this]
        exact (abs_add_le _ _).trans (by linarith [abs_add_le (z - (s + t)) (s - E)])
      have b2 : |s + t| ≤ T + q + |s - E| + |t - y| := by
        have : s + t = (E + y) + ((s - E) + (t - y)) := by ring
        rw [this]
        have := abs_add_le (E + y) ((s - E) + (t - y))
        have := abs_add_le E y
        have := abs_add_le (s - E) (t - y)
        linarith
      have b3 : P.u * |s + t| ≤ P.u * (T + q + |s - E| + |t - y|) := mul_le_mul_of_nonneg_left b2 hu
      have b4 : |z - (E + y)| ≤ (1 + P.u) * (|s - E| + |t - y|) + P.u * (T + q) + P.η := by linarith
      have b5 : (1 + P.u) * (|s - E| + |t - y|) ≤
          (1 + P.u) * (((1 + P.u) * w - 1) * T + 2 * n * w * P.η + (P.u * q + P.η)) :=
        mul_le_mul_of_nonneg_left (by linarith) (by linarith)
      have b6 : 0 ≤ ((1 + P.u) ^ 2 * w - (1 + P.u) ^ 2) * q := by
        have : (1 + P.u) ^ 2 * w - (1 + P.u) ^ 2 = (1 + P.u) ^ 2 * (w - 1) := by ring
        rw [this]; exact mul_nonneg (mul_nonneg (by positivity) (by linarith)) hq0
      have b7 : 0 ≤ (2 * (1 + P.u) * (w - 1) + P.u) * P.η :=
        mul_nonneg (by nlinarith only [hu, hw1, mul_nonneg hu (sub_nonneg.2 hw1)]) hη
      calc |z - (E + y)| ≤ (1 + P.u) * (((1 + P.u) * w - 1) * T + 2 * n * w * P.η + (P.u * q + P.η)) + P.u * (T + q) + P.η := by
            linarith
        _ ≤ ((1 + P.u) ^ 2 * w - 1) * (T + q) + 2 * (n + 1) * ((1 + P.u) * w) * P.η := by linarith
    · intro hfin hM
      have g3 := hfin p (by simp)
      have c0 : 0 ≤ (1 + P.u) * w := by positivity
      have c1 : (1 + P.u) * w * T + 2 * n * w * P.η ≤ (1 + P.u) ^ 2 * w * (T + q) + 2 * (n + 1) * ((1 + P.u) * w) * P.η := by
        have x1 : 0 ≤ P.u * ((1 + P.u) * w * T) := by positivity
        have x2 : 0 ≤ (1 + P.u) ^ 2 * w * q := by positivity
        have x3 : 0 ≤ (2 * w + 2 * (n + 1) * (P.u * w)) * P.η := by positivity
        linarith
      have g1 := ih2 (fun r hr => hfin r (by simp [hr])) (c1.trans hM)
      obtain ⟨-, g2⟩ := ih1 g1
      have d1 : q ≤ P.M := by
        have x1 : q ≤ (1 + P.u) ^ 2 * w * q := by
          have : 1 ≤ (1 + P.u) ^ 2 * w := by nlinarith only [hu, hw1, mul_nonneg hu (sub_nonneg.2 hw1), sq_nonneg P.u]
          nlinarith only [this, hq0]
        have x2 : 0 ≤ (1 + P.u) ^ 2 * w * T := by positivity
        have x3 : 0 ≤ 2 * (n + 1) * ((1 + P.u) * w) * P.η := by positivity
        linarith
      have g4 := mul_finite hS g3.1 g3.2 (by rw [hqe]; exact d1)
      refine add_finite hS g1 g4 ?_
      have a2 := mul_err hS g4
      rw [hqe] at a2
      obtain ⟨s, hs⟩ : ∃ s, s = num val (rowFold ps) := ⟨_, rfl⟩
      obtain ⟨t, ht⟩ : ∃ t, t = num val (p.1 * p.2) := ⟨_, rfl⟩
      obtain ⟨y, hy⟩ : ∃ y, y = num val p.1 * num val p.2 := ⟨_, rfl⟩
      rw [← ht, ← hy] at a2
      rw [← hs] at g2
      rw [← hs, ← ht]
      rw [← hy] at hqe
      have b2 : |s + t| ≤ T + q + |s - E| + |t - y| := by
        have : s + t = (E + y) + ((s - E) + (t - y)) := by ring
        rw [this]
        have := abs_add_le (E + y) ((s - E) + (t - y))
        have := abs_add_le E y
        have := abs_add_le (s - E) (t - y)
        linarith
      have b6 : 0 ≤ ((1 + P.u) ^ 2 * w - (1 + P.u)) * q := by
        have : (1 + P.u) ^ 2 * w - (1 + P.u) = (1 + P.u) * (w - 1 + P.u * w) := by ring
        rw [this]
        exact mul_nonneg (mul_nonneg (by positivity) (by nlinarith only [hu, hw1])) hq0
      have x1 : 0 ≤ P.u * ((1 + P.u) * w * T) := by positivity
      have x3 : 0 ≤ (2 * w - 1 + 2 * (n + 1) * (P.u * w)) * P.η :=
        mul_nonneg (by have : 0 ≤ 2 * (n + 1) * (P.u * w) := by positivity
                       linarith) hη
      linarith

theorem getElem_scatterAdd_fold {α : Type} [Add α] {l : List α} {upd : List (Nat × α)} {i : Nat} (hi : i < l.length) :
    (scatterAdd l upd)[i]'(by rw [length_scatterAdd]; exact hi) = (upd.filter fun p => p.1 = i).foldl (fun s p => s + p.2) l[i] := by
  unfold scatterAdd
  induction upd generalizing l with
  | nil => simp
  | cons p upd ih =>
    simp only [List.foldl_cons]
    rw [ih (l := l.modify p.1 (· + p.2)) (by simpa using hi), List.getElem_modify]
    by_cases hp : p.1 = i
    · simp [hp]
    · simp [hp]

/-- The pairs of factors that make up one entry of the product. -/
def rowPairs (A : Coo S) (x : List S) (i : Nat) : List (S × S) :=
  ((entries A).filter fun e => e.1 = i).map fun e => (e.2.2, x.getD e.2.1 0)

theorem matmul_rowFold {A : Coo S} (h : CooWF A) {x : List S} (hx : x.length = A.shape.2) :
    ∃ y, A.matmul x = .ok y ∧ y.length = A.shape.1 ∧ ∀ i : Fin A.shape.1, vec y A.shape.1 i = rowFold (rowPairs A x i) := by
  refine ⟨scatterAdd (List.replicate A.shape.1 0) ((entries A).map fun e => (e.1, e.2.2 * x.getD e.2.1 0)), ?_, ?_, ?_⟩
  · unfold Coo.matmul
    rw [matmul_updates h hx]
    obtain ⟨h1, h2, _, _⟩ := h
    simp [hx, h1, h2]
  · simp [length_scatterAdd]
  · intro i
    rw [vec_eq (by simp [length_scatterAdd]), getElem_scatterAdd_fold (by simp)]
    simp only [List.getElem_replicate, rowFold, rowPairs, List.filter_map, List.foldl_map]
    rfl

theorem entries_map {α β : Type} (f : α → β) (A : Coo α) : entries (A.map f) = (entries A).map fun e => (e.1, e.2.1, f e.2.2) := by
  simp only [entries, Coo.map]
  rw [List.zip_map_right, List.zip_map_right]
  simp [Prod.map]

theorem cooWF_map {α β : Type} (f : α → β) {A : Coo α} (h : CooWF A) : CooWF (A.map f) := by
  obtain ⟨h1, h2, h3, h4⟩ := h
  exact ⟨by simpa [Coo.map] using h1, by simpa [Coo.map] using h2, h3, h4⟩

/-- An entry of the exact product, as a sum over the entries of the row. -/
theorem mulVec_rowPairs {A : Coo S} (h : CooWF A) {x : List S} (hx : x.length = A.shape.2) (f : S → ℝ) (i : Fin A.shape.1) :
    ((cooMatrix (A.map f) A.shape.1 A.shape.2).mulVec (vec (x.map f) A.shape.2)) i =
      ((rowPairs A x i).map fun p => f p.1 * f p.2).sum := by
  simp only [Matrix.mulVec, dotProduct, cooMatrix, entries_map, rowPairs, List.map_map, List.filter_map]
  rw [sum_filter_eq (n := A.shape.2) _ (fun e => e.2.1) _ (fun e he => (entries_lt h e (List.mem_filter.1 he).1).2)]
  apply Finset.sum_congr rfl
  intro j _
  rw [List.filter_filter, ← List.sum_map_mul_right]
  have : ((entries A).filter fun e => decide (e.2.1 = (j : Nat)) && decide (e.1 = (i : Nat))) =
      (entries A).filter ((fun e : Nat × Nat × ℝ => decide (e.1 = i.val ∧ e.2.1 = j.val)) ∘ fun e : Nat × Nat × S => (e.1, e.2.1, f e.2.2)) := by
    apply List.filter_congr
    intro e _
    simp [Bool.and_comm]
  rw [this]
  congr 1
  apply List.map_congr_left
  intro e he
  have he2 := (List.mem_filter.1 he).2
  simp only [Function.comp, decide_eq_true_eq] at he2
  have hj : e.2.1 < x.length := by rw [he2.2, hx]; exact j.2
  simp only [Function.comp]
  rw [vec_eq (by simpa using hx), List.getElem_map]
  simp only [← he2.2]
  rw [List.getD_eq_getElem?_getD, List.getElem?_eq_getElem hj]
  rfl

theorem length_rowPairs {A : Coo S} {x : List S} {i : Nat} : (rowPairs A x i).length = rowCount A i := by
  simp [rowPairs, rowCount]

omit [Scal S] in
theorem perm_sum {l l' : List S} (h : l.Perm l') (f : S → ℝ) : (l.map f).sum = (l'.map f).sum := (h.map f).sum_eq

/-- A sum in any order and with any brackets. -/
theorem bracketed_err (hS : IsFloat P S val) {l : List S} {s : S} (h : Bracketed l s) : l ≠ [] ∧
    (IsFinite val s → (∀ a ∈ l, IsFinite val a) ∧ |num val s - (l.map (num val)).sum| ≤
      ((1 + P.u) ^ (l.length - 1) - 1) * (l.map fun a => |num val a|).sum + ((l.length - 1 : Nat) : ℝ) * (1 + P.u) ^ (l.length - 1) * P.η) ∧
    ((∀ a ∈ l, IsFinite val a) →
      (1 + P.u) ^ (l.length - 1) * (l.map fun a => |num val a|).sum + ((l.length - 1 : Nat) : ℝ) * (1 + P.u) ^ (l.length - 1) * P.η ≤ P.M →
      IsFinite val s) := by
  induction h with
  | single a => simpa using fun h _ => h
  | @add l l₁ l₂ s t hp _ _ ih1 ih2 =>
    obtain ⟨n1, i1, j1⟩ := ih1
    obtain ⟨n2, i2, j2⟩ := ih2
    have hu := P.u_nonneg
    have hη := P.η_nonneg
    have hlen : l.length = l₁.length + l₂.length := by rw [hp.length_eq, List.length_append]
    have m1 := List.length_pos_of_ne_nil n1
    have m2 := List.length_pos_of_ne_nil n2
    rw [perm_sum hp, perm_sum hp, List.map_append, List.map_append, List.sum_append, List.sum_append]
    have hnn : ∀ l : List S, 0 ≤ (l.map fun a => |num val a|).sum := fun l =>
      List.sum_nonneg (by simp only [List.mem_map, forall_exists_index, and_imp]; rintro _ q _ rfl; positivity)
    have hab : ∀ l : List S, |(l.map (num val)).sum| ≤ (l.map fun a => |num val a|).sum := fun l => by
      refine (abs_list_sum_le _).trans (le_of_eq ?_)
      rw [List.map_map]; rfl
    obtain ⟨a, ha⟩ : ∃ a, a = l₁.length - 1 := ⟨_, rfl⟩
    obtain ⟨b, hb⟩ : ∃ b, b = l₂.length - 1 := ⟨_, rfl⟩
    have hc : l.length - 1 = a + b + 1 := by omega
    rw [hc]
    rw [← ha] at i1 j1
    rw [← hb] at i2 j2
    have t1 := hnn l₁
    have t2 := hnn l₂
    have h1 := hab l₁
    have h2 := hab l₂
    obtain ⟨T₁, hT1⟩ : ∃ T, T = (l₁.map fun a => |num val a|).sum := ⟨_, rfl⟩
    obtain ⟨T₂, hT2⟩ : ∃ T, T = (l₂.map fun a => |num val a|).sum := ⟨_, rfl⟩
    obtain ⟨E₁, hE1⟩ : ∃ E, E = (l₁.map (num val)).sum := ⟨_, rfl⟩
    obtain ⟨E₂, hE2⟩ : ∃ E, E = (l₂.map (num val)).sum := ⟨_, rfl⟩
    rw [← hT1] at i1 j1 t1 h1 ⊢
    rw [← hT2] at i2 j2 t2 h2 ⊢
    rw [← hE1] at i1 h1 ⊢
    rw [← hE2] at i2 h2 ⊢
    obtain ⟨w, hw⟩ : ∃ w, w = (1 + P.u) ^ (a + b) := ⟨_, rfl⟩
    have w1 : (1 + P.u) ^ a ≤ w := hw ▸ pow_le_pow_right₀ (by linarith) (by omega)
    have w2 : (1 + P.u) ^ b ≤ w := hw ▸ pow_le_pow_right₀ (by linarith) (by omega)
    have w0 : 1 ≤ w := hw ▸ pow_ge_one P _
    have e1 : (1 + P.u) ^ (a + b + 1) = (1 + P.u) * w := by rw [hw]; ring
    rw [e1]
    push_cast
    have a0 : (0 : ℝ) ≤ a := a.cast_nonneg
    have b0 : (0 : ℝ) ≤ b := b.cast_nonneg
    have p1 := pow_ge_one P a
    have p2 := pow_ge_one P b
    have q1 : a * (1 + P.u) ^ a * P.η ≤ a * w * P.η := by gcongr
    have q2 : b * (1 + P.u) ^ b * P.η ≤ b * w * P.η := by gcongr
    have q3 : (1 + P.u) ^ a * T₁ ≤ w * T₁ := by gcongr
    have q4 : (1 + P.u) ^ b * T₂ ≤ w * T₂ := by gcongr
    have r0 : 0 ≤ a * w * P.η := by positivity
    have r1 : 0 ≤ b * w * P.η := by positivity
    have r2 : P.η ≤ (1 + P.u) * w * P.η := by
      have : 1 ≤ (1 + P.u) * w := by nlinarith only [hu, w0]
      nlinarith only [this, hη]
    have tri : ∀ x y : ℝ, |x - E₁| ≤ w * T₁ - T₁ + a * w * P.η → |y - E₂| ≤ w * T₂ - T₂ + b * w * P.η →
        |x + y| ≤ w * (T₁ + T₂) + (a + b) * w * P.η := by
      intro x y hx hy
      have : x + y = (E₁ + E₂) + ((x - E₁) + (y - E₂)) := by ring
      rw [this]
      have := abs_add_le (E₁ + E₂) ((x - E₁) + (y - E₂))
      have := abs_add_le E₁ E₂
      have := abs_add_le (x - E₁) (y - E₂)
      linarith
    refine ⟨fun h0 => by rw [h0] at hlen; simp at hlen; omega, ?_, ?_⟩
    · intro hf
      obtain ⟨f1, f2⟩ := add_fin_inv hS hf
      obtain ⟨g1, k1⟩ := i1 f1
      obtain ⟨g2, k2⟩ := i2 f2
      refine ⟨fun c hc => ?_, ?_⟩
      · rcases List.mem_append.1 (hp.mem_iff.1 hc) with h | h
        exacts [g1 c h, g2 c h]
      have er := add_err hS hf
      obtain ⟨x, hx⟩ : ∃ x, x = num val s := ⟨_, rfl⟩
      obtain ⟨y, hy⟩ : ∃ y, y = num val t := ⟨_, rfl⟩
      obtain ⟨z, hz⟩ : ∃ z, z = num val (s + t) := ⟨_, rfl⟩
      rw [← hx] at k1
      rw [← hy] at k2
      rw [← hx, ← hy, ← hz] at er
      rw [← hz]
      have u1 : |x - E₁| ≤ w * T₁ - T₁ + a * w * P.η := by linarith
      have u2 : |y - E₂| ≤ w * T₂ - T₂ + b * w * P.η := by linarith
      have u3 := mul_le_mul_of_nonneg_left (tri x y u1 u2) hu
      have : z - (E₁ + E₂) = (z - (x + y)) + ((x - E₁) + (y - E₂)) := by ring
      rw [this]
      have v1 := abs_add_le (z - (x + y)) ((x - E₁) + (y - E₂))
      have v2 := abs_add_le (x - E₁) (y - E₂)
      linarith
    · intro hfin hM
      have y1 : 0 ≤ P.u * (w * (T₁ + T₂)) := by positivity
      have y2 : 0 ≤ P.u * ((a + b) * w * P.η) := by positivity
      have y3 : 0 ≤ w * T₁ := by positivity
      have y4 : 0 ≤ w * T₂ := by positivity
      have y5 : 0 ≤ (1 + P.u) * w * P.η := by positivity
      have hle : w * (T₁ + T₂) + (a + b) * w * P.η ≤ P.M := by linarith
      have f1 := j1 (fun c hc => hfin c (hp.mem_iff.2 (List.mem_append_left _ hc))) (by linarith)
      have f2 := j2 (fun c hc => hfin c (hp.mem_iff.2 (List.mem_append_right _ hc))) (by linarith)
      obtain ⟨-, k1⟩ := i1 f1
      obtain ⟨-, k2⟩ := i2 f2
      exact add_finite hS f1 f2 ((tri _ _ (by linarith) (by linarith)).trans hle)

/-- The sum of the computed squares. -/
theorem squares_err (hS : IsFloat P S val) (r : List S) (h : ∀ a ∈ r, IsFinite val (a * a)) :
    |((r.map fun a => a * a).map (num val)).sum - sqNorm (r.map (num val))| ≤ P.u * sqNorm (r.map (num val)) + r.length * P.η ∧
    ((r.map fun a => a * a).map fun a => |num val a|).sum ≤ (1 + P.u) * sqNorm (r.map (num val)) + r.length * P.η := by
  induction r with
  | nil => simp [sqNorm]
  | cons a r ih =>
    obtain ⟨i1, i2⟩ := ih fun b hb => h b (by simp [hb])
    have e := mul_err hS (h a (by simp))
    have hq : 0 ≤ num val a * num val a := mul_self_nonneg _
    rw [abs_of_nonneg hq] at e
    have hsq : sqNorm ((a :: r).map (num val)) = num val a * num val a + sqNorm (r.map (num val)) := by
      simp [sqNorm, sq]
    rw [hsq]
    simp only [List.map_cons, List.sum_cons, List.length_cons]
    push_cast
    obtain ⟨q, hq'⟩ : ∃ q, q = num val a * num val a := ⟨_, rfl⟩
    obtain ⟨z, hz⟩ : ∃ z, z = num val (a * a) := ⟨_, rfl⟩
    obtain ⟨X, hX⟩ : ∃ X, X = ((r.map fun a => a * a).map (num val)).sum := ⟨_, rfl⟩
    obtain ⟨Y, hY⟩ : ∃ Y, Y = sqNorm (r.map (num val)) := ⟨_, rfl⟩
    rw [← hq', ← hz] at e
    rw [← hY] at i1 i2 ⊢
    rw [← hX] at i1 ⊢
    rw [← hz, ← hq']
    rw [← hq'] at hq
    constructor
    · have : z + X - (q + Y) = (z - q) + (X - Y) := by ring
      rw [this]
      linarith [abs_add_le (z - q) (X - Y)]
    · have : |z| ≤ |z - q| + q := by
        have := abs_add_le (z - q) q
        rw [abs_of_nonneg hq] at this
        simpa using this
      linarith

theorem sqNorm_nonneg' (l : List ℝ) : 0 ≤ sqNorm l :=
  List.sum_nonneg (by simp only [List.mem_map, forall_exists_index, and_imp]; rintro _ q _ rfl; positivity)

theorem sumSq_err (hS : IsFloat P S val) (r : List S) :
    (IsFinite val (sumSq r) → (∀ a ∈ r, IsFinite val a) ∧ |num val (sumSq r) - sqNorm (r.map (num val))| ≤
      ((1 + P.u) ^ (r.length + P.pad) - 1) * sqNorm (r.map (num val)) +
        (2 * r.length + P.pad) * (1 + P.u) ^ (r.length + P.pad) * P.η) ∧
    ((∀ a ∈ r, IsFinite val a) → (1 + P.u) ^ (r.length + P.pad) * sqNorm (r.map (num val)) +
        (2 * r.length + P.pad) * (1 + P.u) ^ (r.length + P.pad) * P.η ≤ P.M → IsFinite val (sumSq r)) := by
  have hu := P.u_nonneg
  have hη := P.η_nonneg
  obtain ⟨k, hk, h⟩ := hS.sum (r.map fun a => a * a)
  change _ ∨ Bracketed _ (sumSq r) at h
  rcases h with ⟨h1, h2⟩ | h
  · have hr : r = [] := by simpa using (List.append_eq_nil_iff.1 h1).1
    subst hr
    have hv : val (sumSq ([] : List S)) = fin 0 := h2
    refine ⟨fun _ => ⟨by simp, ?_⟩, fun _ _ => ⟨0, hv⟩⟩
    simp only [num, hv, Ext.toReal, List.map_nil, sqNorm, List.sum_nil, sub_zero, abs_zero, mul_zero, zero_add]
    positivity
  obtain ⟨hne, he, hf⟩ := bracketed_err hS h
  have hlen : ((r.map fun a => a * a) ++ List.replicate k 0).length = r.length + k := by simp
  rw [hlen] at he hf
  have hpos : 0 < r.length + k := by rw [← hlen]; exact List.length_pos_of_ne_nil hne
  obtain ⟨m, hm⟩ : ∃ m, m = r.length + k - 1 := ⟨_, rfl⟩
  rw [← hm] at he hf
  have hz : ∀ f : S → ℝ, f 0 = 0 → (((r.map fun a => a * a) ++ List.replicate k 0).map f).sum = ((r.map fun a => a * a).map f).sum := by
    intro f hf0; simp [hf0]
  rw [hz _ (num_zero hS)] at he
  rw [hz (fun a => |num val a|) (by simp [num_zero hS])] at he hf
  have hY := sqNorm_nonneg' (r.map (num val))
  obtain ⟨w, hw⟩ : ∃ w, w = (1 + P.u) ^ m := ⟨_, rfl⟩
  have hW : (1 + P.u) * w ≤ (1 + P.u) ^ (r.length + P.pad) := by
    rw [hw, ← pow_succ']; exact pow_le_pow_right₀ (by linarith) (by omega)
  have hw1 : 1 ≤ w := hw ▸ pow_ge_one P _
  have hmn : (m : ℝ) ≤ r.length + P.pad := by exact_mod_cast (by omega : m ≤ r.length + P.pad)
  rw [← hw] at he hf
  obtain ⟨W, hWe⟩ : ∃ W, W = (1 + P.u) ^ (r.length + P.pad) := ⟨_, rfl⟩
  rw [← hWe] at hW ⊢
  have hn0 : (0 : ℝ) ≤ r.length := Nat.cast_nonneg _
  have hp0 : (0 : ℝ) ≤ P.pad := Nat.cast_nonneg _
  have hm0 : (0 : ℝ) ≤ m := Nat.cast_nonneg _
  have hwW : w ≤ W := by nlinarith only [hu, hw1, hW]
  have k1 : (r.length + (m : ℝ)) * w * P.η ≤ (2 * r.length + P.pad) * W * P.η := by
    have : r.length + (m : ℝ) ≤ 2 * r.length + P.pad := by linarith
    gcongr
  have k2 : (1 + P.u) * w * sqNorm (r.map (num val)) ≤ W * sqNorm (r.map (num val)) := by gcongr
  obtain ⟨Y, hYe⟩ : ∃ Y, Y = sqNorm (r.map (num val)) := ⟨_, rfl⟩
  constructor
  · intro hfin
    obtain ⟨f1, f2⟩ := he hfin
    have f3 : ∀ a ∈ r, IsFinite val (a * a) := fun a ha => f1 _ (List.mem_append_left _ (List.mem_map_of_mem ha))
    obtain ⟨s1, s2⟩ := squares_err hS r f3
    refine ⟨fun a ha => (mul_fin_inv hS (f3 a ha)).1, ?_⟩
    rw [← hYe] at s1 s2 k2 hY ⊢
    have s3 := mul_le_mul_of_nonneg_left s2 (sub_nonneg.2 hw1)
    have tri := abs_add_le (num val (sumSq r) - ((r.map fun a => a * a).map (num val)).sum) (((r.map fun a => a * a).map (num val)).sum - Y)
    rw [sub_add_sub_cancel] at tri
    linarith
  · intro hfin hM
    have x1 : ∀ a ∈ r, num val a * num val a ≤ sqNorm (r.map (num val)) := by
      intro a ha
      have : num val a ^ 2 ∈ (r.map (num val)).map fun x => x ^ 2 := List.mem_map_of_mem (List.mem_map_of_mem ha)
      rw [← sq]
      exact List.single_le_sum (by simp only [List.mem_map, forall_exists_index, and_imp]; rintro _ _ q _ rfl rfl; positivity) _ this
    have k3 : 0 ≤ (2 * r.length + P.pad) * W * P.η := by
      have : 0 ≤ W := by linarith
      positivity
    have f3 : ∀ a ∈ r, IsFinite val (a * a) := by
      intro a ha
      refine mul_finite hS (hfin a ha) (hfin a ha) ?_
      rw [abs_of_nonneg (mul_self_nonneg _)]
      have : sqNorm (r.map (num val)) ≤ W * sqNorm (r.map (num val)) := by nlinarith only [hY, hwW, hw1]
      linarith [x1 a ha]
    obtain ⟨s1, s2⟩ := squares_err hS r f3
    refine hf ?_ ?_
    · intro a ha
      rcases List.mem_append.1 ha with h | h
      · obtain ⟨b, hb, rfl⟩ := List.mem_map.1 h
        exact f3 b hb
      · rw [List.eq_of_mem_replicate h]; exact finite_zero hS
    · have s3 := mul_le_mul_of_nonneg_left s2 (by linarith : 0 ≤ w)
      linarith

end Jaxfg
