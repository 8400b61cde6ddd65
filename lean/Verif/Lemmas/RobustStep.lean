/- Linear problems with Huber wrappers: what one Gauss-Newton step does to the loss. -/
import Verif.Lemmas.Robust
import Verif.Lemmas.LinearRate
import Mathlib.Topology.Semicontinuity.Basic

namespace Jaxfg
open Spec
open Matrix hiding vec
variable {F : Nat → FactorClass} {C : Ty → VarClass ℝ} {fs : List Factor}

/-- Some curvature is small enough. -/
theorem smallFor_exists (hfs : ∀ f ∈ fs, FactorWF F C f) {L : ℝ} (hL : 0 ≤ L) : ∃ m, SmallFor fs L m := by
  suffices H : ∃ m, 0 < m ∧ 10 * m ≤ 1 ∧ ∀ f ∈ fs, ∀ N δ, f.noise = .huber N ⟨[], [δ]⟩ → 10 * m * (L + δ ^ 2) ^ 3 ≤ 8 * δ ^ 6 by
    obtain ⟨m, h1, h2, h3⟩ := H
    refine ⟨m, h1, h2, fun f hf N δ hn => le_trans ?_ (h3 f hf N δ hn)⟩
    apply mul_le_mul_of_nonneg_right _ (by positivity)
    have h4 : 0 ≤ 10 * m := by linarith
    calc (10 * m) ^ 4 ≤ (10 * m) ^ 1 := pow_le_pow_of_le_one h4 h2 (by norm_num)
      _ = 10 * m := pow_one _
  induction fs with
  | nil => exact ⟨1 / 10, by norm_num, by norm_num, fun f hf => by simp at hf⟩
  | cons f fs ih =>
    obtain ⟨m, h1, h2, h3⟩ := ih fun f hf => hfs f (by simp [hf])
    by_cases hh : ∃ N δ, f.noise = .huber N ⟨[], [δ]⟩
    · obtain ⟨N, δ, hn⟩ := hh
      have hδ : 0 < δ := by
        have := (hfs f (by simp)).noise
        rw [hn] at this
        obtain ⟨-, d, e, hd⟩ := this
        cases e; exact hd
      have hp : 0 < (L + δ ^ 2) ^ 3 := by positivity
      have hq : 0 < 8 * δ ^ 6 / (10 * (L + δ ^ 2) ^ 3) := by positivity
      have mono : ∀ {x k : ℝ}, 0 ≤ k → x ≤ m → 10 * x * k ≤ 10 * m * k := fun hk h => mul_le_mul_of_nonneg_right (by linarith) hk
      refine ⟨min m (8 * δ ^ 6 / (10 * (L + δ ^ 2) ^ 3)), lt_min h1 hq, by have := min_le_left m (8 * δ ^ 6 / (10 * (L + δ ^ 2) ^ 3)); linarith, ?_⟩
      intro f' hf' N' δ' hn'
      rcases List.mem_cons.1 hf' with rfl | hf'
      · rw [hn] at hn'
        cases hn'
        have h4 : 10 * min m (8 * δ ^ 6 / (10 * (L + δ ^ 2) ^ 3)) * (L + δ ^ 2) ^ 3 ≤
            10 * (8 * δ ^ 6 / (10 * (L + δ ^ 2) ^ 3)) * (L + δ ^ 2) ^ 3 :=
          mul_le_mul_of_nonneg_right (by linarith [min_le_right m (8 * δ ^ 6 / (10 * (L + δ ^ 2) ^ 3))]) hp.le
        refine h4.trans (le_of_eq ?_)
        field_simp
      · exact (mono (by positivity) (min_le_left _ _)).trans (h3 f' hf' N' δ' hn')
    · refine ⟨m, h1, h2, fun f' hf' N δ hn => ?_⟩
      rcases List.mem_cons.1 hf' with rfl | hf'
      · exact absurd ⟨N, δ, hn⟩ hh
      · exact h3 f' hf' N δ hn

/-- A function that is not negative, has supporting hyperplanes and grows has a minimizer. -/
theorem minimizer_exists {n : Nat} (φ : (Fin n → ℝ) → ℝ) (h0 : ∀ s, 0 ≤ φ s)
    (hsup : ∀ s, ∃ w : Fin n → ℝ, ∀ t, φ s + w ⬝ᵥ (t - s) ≤ φ t) (s₀ : Fin n → ℝ) {κ : ℝ} (hκ : 0 < κ)
    (hgrow : ∀ t, φ t ≤ φ s₀ → κ * ((t - s₀) ⬝ᵥ (t - s₀)) ≤ φ t + φ s₀) : ∃ s, ∀ t, φ s ≤ φ t := by
  have hlsc : LowerSemicontinuous φ := by
    intro s y hy
    obtain ⟨w, hw⟩ := hsup s
    have hcont : Continuous fun t : Fin n → ℝ => φ s + w ⬝ᵥ (t - s) := by
      simp only [dotProduct, Pi.sub_apply]
      fun_prop
    have h1 : y < φ s + w ⬝ᵥ (s - s) := by simpa using hy
    filter_upwards [hcont.continuousAt.eventually (Ioi_mem_nhds h1)] with t ht
    exact lt_of_lt_of_le ht (hw t)
  obtain ⟨R, hR⟩ : ∃ R, R = Real.sqrt (2 * φ s₀ / κ) := ⟨_, rfl⟩
  have hR0 : 0 ≤ R := by rw [hR]; exact Real.sqrt_nonneg _
  have hcomp : IsCompact (Set.pi Set.univ fun i : Fin n => Set.Icc (s₀ i - R) (s₀ i + R)) :=
    isCompact_univ_pi fun i => isCompact_Icc
  have hmem : s₀ ∈ Set.pi Set.univ fun i : Fin n => Set.Icc (s₀ i - R) (s₀ i + R) := by
    intro i _
    exact ⟨by linarith, by linarith⟩
  obtain ⟨s, -, hs2⟩ := LowerSemicontinuousOn.exists_isMinOn ⟨s₀, hmem⟩ hcomp (hlsc.lowerSemicontinuousOn _)
  refine ⟨s, fun t => ?_⟩
  rcases lt_or_ge (φ s₀) (φ t) with h | h
  · exact (hs2 hmem).trans h.le
  · refine hs2 (a := t) fun i _ => ?_
    have h1 : (t i - s₀ i) ^ 2 ≤ R ^ 2 := by
      have h2 : (t i - s₀ i) ^ 2 ≤ (t - s₀) ⬝ᵥ (t - s₀) := by
        rw [pow_two]
        exact Finset.single_le_sum (f := fun i => (t - s₀) i * (t - s₀) i) (fun j _ => mul_self_nonneg _) (Finset.mem_univ i)
      have h3 : (t - s₀) ⬝ᵥ (t - s₀) ≤ 2 * φ s₀ / κ := by
        rw [le_div_iff₀ hκ]
        have := hgrow t h
        linarith
      rw [hR, Real.sq_sqrt (div_nonneg (by have := h0 s₀; linarith) hκ.le)]
      exact h2.trans h3
    have h4 := abs_le_of_sq_le_sq' h1 hR0
    exact ⟨by linarith [h4.1], by linarith [h4.2]⟩

theorem dot_blocks {z z' : Factor → List ℝ} {n : Nat} (hz : ∀ f ∈ fs, (z f).length = rdim f) (hz' : ∀ f ∈ fs, (z' f).length = rdim f)
    (hn : ((evalOrder fs).flatMap z).length = n) :
    vec ((evalOrder fs).flatMap z) n ⬝ᵥ vec ((evalOrder fs).flatMap z') n =
      (fs.map fun f => vec (z f) (rdim f) ⬝ᵥ vec (z' f) (rdim f)).sum := by
  have hmem : ∀ f, f ∈ evalOrder fs → f ∈ fs := fun f hf => mem_groupedBy.1 hf
  have hn' : ((evalOrder fs).flatMap z').length = n := by
    rw [← hn, length_flatMap_blocks fun f hf => hz f (hmem f hf), length_flatMap_blocks fun f hf => hz' f (hmem f hf)]
  rw [← zipWith_sum_eq hn hn', dot_flatMap _ rdim z z' (fun f hf => hz f (hmem f hf)) (fun f hf => hz' f (hmem f hf))]
  exact ((groupedBy_perm kind fs).map _).sum_eq

theorem slopeOf_bound {f : Factor} (hf : f ∈ fs) {k l : Nat} (hN : NoiseWF f.noise k l) {L m n : ℝ} (hm : SmallFor fs L m) (hn : 0 ≤ n)
    (h : lossOf f.noise n ≤ L) : 10 * m ≤ slopeOf f.noise n := by
  obtain ⟨-, hm2, hm3⟩ := hm
  cases hno : f.noise with
  | gaussian _ => exact hm2
  | diagonal _ => exact hm2
  | huber N δ =>
    rw [hno] at hN h
    obtain ⟨-, d, rfl, hd⟩ := hN
    exact slope_bound hd hn hm2 (hm3 f hf N d hno) h

section
variable (hC : GoodClasses C) (hfs : ∀ f ∈ fs, FactorWF F C f) (hne : fs ≠ []) (hsimple : ∀ f ∈ fs, NoiseSimple f.noise)
    (haff : ∀ f ∈ fs, AffineFactor F C f) {g : Graph} (hg : Graph.make C fs = .ok g)
include hC hfs

theorem totalLoss_eq {vars : List Var} {val : Var → Value ℝ} {a : Assign ℝ} (h : Holds C fs vars val a) {p : Factor → List ℝ}
    (hp : ∀ f ∈ fs, innerAt F val f = .ok (p f)) :
    (∀ f ∈ fs, (p f).length = rdim f) ∧
    totalLoss F fs val = (fs.map fun f => lossOf f.noise (Real.sqrt (vec (p f) (rdim f) ⬝ᵥ vec (p f) (rdim f)))).sum ∧
    ∀ f ∈ fs, lossOf f.noise (Real.sqrt (vec (p f) (rdim f) ⬝ᵥ vec (p f) (rdim f))) ≤ totalLoss F fs val := by
  have hl : ∀ f ∈ fs, (p f).length = rdim f := by
    intro f hf
    obtain ⟨u, h1, h2⟩ := factor_inner (hfs f hf) (h.valuesFor hC hf)
    rw [hp f hf] at h1; cases h1
    exact h2
  have he : totalLoss F fs val = (fs.map fun f => lossOf f.noise (Real.sqrt (vec (p f) (rdim f) ⬝ᵥ vec (p f) (rdim f)))).sum := by
    unfold totalLoss
    congr 1
    apply List.map_congr_left
    intro f hf
    exact factorLoss_eq (hl f hf) (hp f hf)
  refine ⟨hl, he, fun f hf => ?_⟩
  rw [he]
  refine List.single_le_sum ?_ _ (List.mem_map.2 ⟨f, hf, rfl⟩)
  intro x hx
  obtain ⟨f', hf', rfl⟩ := List.mem_map.1 hx
  exact lossOf_nonneg (hfs f' hf').noise (Real.sqrt_nonneg _)

include hne hsimple haff hg

/-- Above and below the loss along a retraction. -/
theorem robust_along {vars vars' : List Var} {val val' : Var → Value ℝ} {a b : Assign ℝ} (h : Holds C fs vars val a)
    (hlay : a.layout = g.layout) {c : ℝ} {r : List ℝ} {A : Coo ℝ} (hcost : g.computeCost F C a = .ok (c, r))
    (hA : g.computeWhitenedResidualJacobian F C a r = .ok A) {d : List ℝ} (hd : d.length = A.shape.2)
    (hb : a.manifoldRetract C ⟨d, g.localLayout⟩ = .ok b) (h' : Holds C fs vars' val' b) :
    ∃ p p' : Factor → List ℝ, (∀ f ∈ fs, innerAt F val f = .ok (p f) ∧ innerAt F val' f = .ok (p' f)) ∧
      (totalLoss F fs val' ≤ totalLoss F fs val +
        2 * ((cooMatrix A A.shape.1 A.shape.2 *ᵥ vec d A.shape.2) ⬝ᵥ vec r A.shape.1) +
        (cooMatrix A A.shape.1 A.shape.2 *ᵥ vec d A.shape.2) ⬝ᵥ (cooMatrix A A.shape.1 A.shape.2 *ᵥ vec d A.shape.2)) ∧
      ((cooMatrix A A.shape.1 A.shape.2 *ᵥ vec d A.shape.2) ⬝ᵥ (cooMatrix A A.shape.1 A.shape.2 *ᵥ vec d A.shape.2) ≤
        (fs.map fun f => sqNorm (List.zipWith (· - ·) (p' f) (p f))).sum) ∧
      ∀ L m, (m = 0 ∨ SmallFor fs L m ∧ totalLoss F fs val ≤ L ∧ totalLoss F fs val' ≤ L) →
        totalLoss F fs val + 2 * ((cooMatrix A A.shape.1 A.shape.2 *ᵥ vec d A.shape.2) ⬝ᵥ vec r A.shape.1) +
          m * (fs.map fun f => sqNorm (List.zipWith (· - ·) (p' f) (p f))).sum ≤ totalLoss F fs val' := by
  obtain ⟨hwf, hsh, w, p, c', rfl, hp, hall⟩ := robust_view hC hfs hne hsimple haff hg h hlay hcost hA
  have hs2 : A.shape.2 = g.localLayout.dim := by rw [hsh]
  have hs1 : ((evalOrder fs).flatMap w).length = A.shape.1 := by rw [hsh]
  obtain ⟨u, p', hu, hu'⟩ := hall d b vars' val' (hd.trans hs2) hb h'
  obtain ⟨-, m1, m2⟩ := matmul_vec hwf hu
  have hin : ∀ f ∈ fs, innerAt F val f = .ok (p f) := fun f hf => (hp f hf).1
  have hin' : ∀ f ∈ fs, innerAt F val' f = .ok (p' f) := fun f hf => (hu' f hf).2.1
  obtain ⟨-, L1, L2⟩ := totalLoss_eq hC hfs h hin
  obtain ⟨-, L1', L2'⟩ := totalLoss_eq hC hfs h' hin'
  refine ⟨p, p', fun f hf => ⟨hin f hf, hin' f hf⟩, ?_⟩
  obtain ⟨E, hE⟩ : ∃ E : (f : Factor) → Fin (rdim f) → ℝ, E = fun f => vec (p' f) (rdim f) - vec (p f) (rdim f) := ⟨_, rfl⟩
  obtain ⟨P, hP⟩ : ∃ P : (f : Factor) → Fin (rdim f) → ℝ, P = fun f => vec (p f) (rdim f) := ⟨_, rfl⟩
  have hpE : ∀ f, vec (p' f) (rdim f) = P f + E f := by intro f; rw [hE, hP]; simp
  have hpP : ∀ f, vec (p f) (rdim f) = P f := by intro f; rw [hP]
  have d1 : (cooMatrix A A.shape.1 A.shape.2 *ᵥ vec d A.shape.2) ⬝ᵥ vec ((evalOrder fs).flatMap w) A.shape.1 =
      (fs.map fun f => slopeOf f.noise (Real.sqrt (P f ⬝ᵥ P f)) * (E f ⬝ᵥ P f)).sum := by
    rw [← m2, dot_blocks (fun f hf => (hu' f hf).1) (fun f hf => (hp f hf).2.2.1) m1]
    congr 1
    apply List.map_congr_left
    intro f hf
    obtain ⟨-, -, -, e1, -, e3⟩ := hp f hf
    have e4 := (hu' f hf).2.2.2
    rw [e4, e1, ← hpP, ← e3, hE, smul_dotProduct, dotProduct_smul]
    simp only [smul_eq_mul]
    ring
  have d2 : (cooMatrix A A.shape.1 A.shape.2 *ᵥ vec d A.shape.2) ⬝ᵥ (cooMatrix A A.shape.1 A.shape.2 *ᵥ vec d A.shape.2) =
      (fs.map fun f => weightOf f.noise (Real.sqrt (P f ⬝ᵥ P f)) * (E f ⬝ᵥ E f)).sum := by
    rw [← m2, dot_blocks (fun f hf => (hu' f hf).1) (fun f hf => (hu' f hf).1) m1]
    congr 1
    apply List.map_congr_left
    intro f hf
    obtain ⟨-, -, -, -, e2, -⟩ := hp f hf
    have e4 := (hu' f hf).2.2.2
    rw [e4, ← hpP, ← e2, hE, smul_dotProduct, dotProduct_smul]
    simp only [smul_eq_mul]
    ring
  have d3 : (fs.map fun f => sqNorm (List.zipWith (· - ·) (p' f) (p f))).sum = (fs.map fun f => E f ⬝ᵥ E f).sum := by
    congr 1
    apply List.map_congr_left
    intro f hf
    have l1 := (hp f hf).2.1
    have l2 := (hu' f hf).2.2.1
    rw [sqNorm_eq (n := rdim f) (by simp [l1, l2]), hE]
    have : vec (List.zipWith (· - ·) (p' f) (p f)) (rdim f) = vec (p' f) (rdim f) - vec (p f) (rdim f) := by
      funext i
      rw [Pi.sub_apply, vec_eq l1, vec_eq l2, vec_eq (by simp [l1, l2]), List.getElem_zipWith]
    rw [this]
  simp only [hpP] at L1 L2
  simp only [hpE] at L1' L2'
  rw [d1, d2, d3, L1, L1']
  refine ⟨?_, ?_, ?_⟩
  · rw [← List.sum_map_mul_left, ← List.sum_map_add, ← List.sum_map_add]
    apply List.sum_le_sum
    intro f hf
    have h1 := loss_vec_up (hfs f hf).noise (P f) (E f)
    obtain ⟨-, s2, -⟩ := slopeOf_facts (hfs f hf).noise (Real.sqrt (P f ⬝ᵥ P f))
    have h2 : 0 ≤ E f ⬝ᵥ E f := Finset.sum_nonneg fun i _ => mul_self_nonneg _
    have h3 := mul_le_mul_of_nonneg_right s2 h2
    linarith
  · apply List.sum_le_sum
    intro f hf
    have h2 : 0 ≤ E f ⬝ᵥ E f := Finset.sum_nonneg fun i _ => mul_self_nonneg _
    exact mul_le_of_le_one_left h2 (slopeOf_facts (hfs f hf).noise (Real.sqrt (P f ⬝ᵥ P f))).2.2
  · intro L m hm
    rw [← List.sum_map_mul_left, ← List.sum_map_mul_left, ← List.sum_map_add, ← List.sum_map_add]
    apply List.sum_le_sum
    intro f hf
    have hm0 : 0 ≤ m := by
      rcases hm with rfl | ⟨h, -⟩
      · exact le_rfl
      · exact h.1.le
    have bound : ∀ n, 0 ≤ n → (SmallFor fs L m → lossOf f.noise n ≤ L) → 10 * m ≤ slopeOf f.noise n := by
      intro n hn hle
      rcases hm with rfl | ⟨h, -⟩
      · rw [mul_zero]; exact (slopeOf_facts (hfs f hf).noise n).1.le
      · exact slopeOf_bound hf (hfs f hf).noise h hn (hle h)
    have h1 := loss_vec_low (hfs f hf).noise (P f) (E f) hm0 (bound _ (Real.sqrt_nonneg _) fun hs => ?_)
      (bound _ (Real.sqrt_nonneg _) fun hs => ?_)
    · linarith
    · rcases hm with rfl | ⟨-, h2, h3⟩
      · exact absurd hs.1 (lt_irrefl _)
      · exact (L2 f hf).trans (L1.le.trans h2)
    · rcases hm with rfl | ⟨-, h2, h3⟩
      · exact absurd hs.1 (lt_irrefl _)
      · exact (L2' f hf).trans (L1'.le.trans h3)

omit hsimple haff in
/-- The length of a step is the distance between the values. -/
theorem step_distance (hE : Props.UsesDefaultRetraction C (Graph.variablesOf fs)) {val val' : Var → Value ℝ} {a b : Assign ℝ}
    (h : Holds C fs (Graph.variablesOf fs) val a) (hlay : a.layout = g.layout) {d : List ℝ} {n : Nat} (hn : n = g.localLayout.dim)
    (hd : d.length = n) (hb : a.manifoldRetract C ⟨d, g.localLayout⟩ = .ok b) (h' : Holds C fs (Graph.variablesOf fs) val' b) :
    sqDist (Graph.variablesOf fs) val' val = vec d n ⬝ᵥ vec d n := by
  obtain ⟨g', hg', hS⟩ := sane_graph (F := F) hC hfs hne
  rw [hg] at hg'; cases hg'
  obtain ⟨e1, e2, -, e4⟩ := Props.retract_entries hS hE h.assignment hlay (hd.trans hn) hb
  have s1 : List.zipWith (· - ·) b.storage a.storage = d := by
    apply List.ext_getElem
    · simp [e1, e2]
    · intro i h1 h2
      have := e4 i
      rw [getD_lt _ (by omega), getD_lt _ (by omega), getD_lt _ h2] at this
      rw [List.getElem_zipWith, this]; ring
  rw [← sqDist_storage (stores_of_holds hC h') (stores_of_holds hC h), s1, sqNorm_eq hd]

/-- One step of Gauss-Newton, with the damping of the linear solver. -/
theorem robust_step (hE : Props.UsesDefaultRetraction C (Graph.variablesOf fs)) {σ μ : ℝ} (hσ : 0 < σ) (hμ : 0 ≤ μ)
    (hD : DeterminesInner F C fs (Graph.variablesOf fs) σ) {val val' : Var → Value ℝ} {a b : Assign ℝ}
    (h : Holds C fs (Graph.variablesOf fs) val a)
    (hlay : a.layout = g.layout) {c : ℝ} {r : List ℝ} {A : Coo ℝ} (hcost : g.computeCost F C a = .ok (c, r))
    (hA : g.computeWhitenedResidualJacobian F C a r = .ok A) {y x : List ℝ} (hy : A.T.matmul (r.map fun z => -z) = .ok y)
    (hx : x.length = A.shape.2) {D : Matrix (Fin A.shape.2) (Fin A.shape.2) ℝ} (hDp : D.PosSemidef)
    (hDμ : ∀ v, v ⬝ᵥ D *ᵥ v ≤ μ * (v ⬝ᵥ v))
    (heq : ((cooMatrix A A.shape.1 A.shape.2)ᵀ * cooMatrix A A.shape.1 A.shape.2 + D) *ᵥ vec x A.shape.2 = vec y A.shape.2)
    (hb : a.manifoldRetract C ⟨x, g.localLayout⟩ = .ok b) (h' : Holds C fs (Graph.variablesOf fs) val' b) :
    totalLoss F fs val' ≤ totalLoss F fs val ∧
    ∀ L m, SmallFor fs L m → totalLoss F fs val ≤ L → ∀ valE e, Holds C fs (Graph.variablesOf fs) valE e → e.layout = g.layout →
      totalLoss F fs val' - totalLoss F fs valE ≤ (1 - m * σ / (σ + μ)) * (totalLoss F fs val - totalLoss F fs valE) := by
  obtain ⟨g', hg', hS⟩ := sane_graph (F := F) hC hfs hne
  rw [hg] at hg'; cases hg'
  obtain ⟨hwf, hsh, -⟩ := robust_view hC hfs hne hsimple haff hg h hlay hcost hA
  have hs2 : A.shape.2 = g.localLayout.dim := by rw [hsh]
  obtain ⟨-, -, hyv⟩ := descent_ok hwf hy
  obtain ⟨-, -, -, hup, -, -⟩ := robust_along hC hfs hne hsimple haff hg h hlay hcost hA hx hb h'
  obtain ⟨M, hM⟩ : ∃ M, M = cooMatrix A A.shape.1 A.shape.2 := ⟨_, rfl⟩
  obtain ⟨ρ, hρ⟩ : ∃ ρ, ρ = vec r A.shape.1 := ⟨_, rfl⟩
  obtain ⟨ξ, hξ⟩ : ∃ ξ, ξ = vec x A.shape.2 := ⟨_, rfl⟩
  rw [← hM, ← hξ, hyv, ← hρ, ← hM] at heq
  rw [← hM, ← hξ, ← hρ] at hup
  have dot : ∀ v, (M *ᵥ v) ⬝ᵥ (M *ᵥ ξ) + v ⬝ᵥ D *ᵥ ξ = -((M *ᵥ v) ⬝ᵥ ρ) := by
    intro v
    have := congrArg (fun z => v ⬝ᵥ z) heq
    simp only [add_mulVec, dotProduct_add, ← mulVec_mulVec, descent, mulVec_neg, dotProduct_neg] at this
    rw [dotProduct_mulVec, vecMul_transpose, dotProduct_mulVec v Mᵀ ρ, vecMul_transpose] at this
    exact this
  have nn : ∀ {k : Nat} (z : Fin k → ℝ), 0 ≤ z ⬝ᵥ z := fun z => Finset.sum_nonneg fun i _ => mul_self_nonneg _
  have hDn : ∀ v, 0 ≤ v ⬝ᵥ D *ᵥ v := fun v => by simpa using hDp.dotProduct_mulVec_nonneg v
  have hQ := dot ξ
  have hdown : totalLoss F fs val' ≤ totalLoss F fs val - ((M *ᵥ ξ) ⬝ᵥ (M *ᵥ ξ) + ξ ⬝ᵥ D *ᵥ ξ) := by
    have := hDn ξ
    linarith
  have hmono : totalLoss F fs val' ≤ totalLoss F fs val := by
    have := hDn ξ
    have := nn (M *ᵥ ξ)
    linarith
  refine ⟨hmono, fun L m hm hL valE e hE' hle => ?_⟩
  have hm1 : m ≤ 1 := by have := hm.2.1; have := hm.1; linarith
  have hη0 : 0 < m * σ / (σ + μ) := div_pos (mul_pos hm.1 hσ) (by linarith)
  have hη1 : m * σ / (σ + μ) ≤ 1 := by
    rw [div_le_one (by linarith)]
    nlinarith
  obtain ⟨η, hη⟩ : ∃ η, η = m * σ / (σ + μ) := ⟨_, rfl⟩
  have hηm : η * (σ + μ) = m * σ := by rw [hη]; field_simp
  rw [← hη] at hη0 hη1 ⊢
  rcases lt_or_ge L (totalLoss F fs valE) with hlt | hge
  · nlinarith [mul_nonneg hη0.le (by linarith : 0 ≤ totalLoss F fs valE - totalLoss F fs val)]
  obtain ⟨v, hv1, hv2⟩ := Props.retract_reaches hS hE h.assignment hlay hE'.assignment hle
  have hv1 : v.length = A.shape.2 := hv1.trans hs2.symm
  obtain ⟨p, p', hp, -, hle1, hlow⟩ := robust_along hC hfs hne hsimple haff hg h hlay hcost hA hv1 hv2 hE'
  have hlow := hlow L m (.inr ⟨hm, hL, hge⟩)
  have hdist := step_distance hC hfs hne hg hE h hlay hs2 hv1 hv2 hE'
  have hst := stores_of_holds hC h
  have hstE := stores_of_holds hC hE'
  have hseen := hD valE val p' p (fun v hv => ⟨hstE.2 v hv, hst.2 v hv⟩) fun f hf => ⟨(hp f hf).2, (hp f hf).1⟩
  rw [hdist] at hseen
  obtain ⟨ν, hν⟩ : ∃ ν, ν = vec v A.shape.2 := ⟨_, rfl⟩
  obtain ⟨S, hS'⟩ : ∃ S, S = (fs.map fun f => sqNorm (List.zipWith (· - ·) (p' f) (p f))).sum := ⟨_, rfl⟩
  rw [← hM, ← hν, ← hρ, ← hS'] at hlow
  rw [← hM, ← hν, ← hS'] at hle1
  rw [← hν, ← hS'] at hseen
  have hνe := dot ν
  have y1 : 0 ≤ η ^ 2 * ((M *ᵥ ν) ⬝ᵥ (M *ᵥ ν)) - 2 * η * ((M *ᵥ ν) ⬝ᵥ (M *ᵥ ξ)) + (M *ᵥ ξ) ⬝ᵥ (M *ᵥ ξ) := by
    have := nn (η • (M *ᵥ ν) - M *ᵥ ξ)
    simp only [sub_dotProduct, dotProduct_sub, smul_dotProduct, dotProduct_smul, smul_eq_mul, dotProduct_comm (M *ᵥ ξ) (M *ᵥ ν)] at this
    linarith
  have y2 : 0 ≤ η ^ 2 * (ν ⬝ᵥ D *ᵥ ν) - 2 * η * (ν ⬝ᵥ D *ᵥ ξ) + ξ ⬝ᵥ D *ᵥ ξ := by
    have := hDn (η • ν - ξ)
    have sym : ξ ⬝ᵥ D *ᵥ ν = ν ⬝ᵥ D *ᵥ ξ := by rw [dot_symm hDp, dotProduct_comm]
    simp only [mulVec_sub, mulVec_smul, sub_dotProduct, dotProduct_sub, smul_dotProduct, dotProduct_smul, smul_eq_mul, sym] at this
    linarith
  have y3 := hDμ ν
  have hS0 : 0 ≤ S := (nn (M *ᵥ ν)).trans hle1
  -- the gap is at most `1 / η` times the decrease
  have key : η * (totalLoss F fs val - totalLoss F fs valE) ≤ (M *ᵥ ξ) ⬝ᵥ (M *ᵥ ξ) + ξ ⬝ᵥ D *ᵥ ξ := by
    have z1 : totalLoss F fs val - totalLoss F fs valE ≤ 2 * ((M *ᵥ ν) ⬝ᵥ (M *ᵥ ξ)) + 2 * (ν ⬝ᵥ D *ᵥ ξ) - m * S := by linarith
    have z2 := mul_le_mul_of_nonneg_left z1 hη0.le
    have z3 : η ^ 2 * ((M *ᵥ ν) ⬝ᵥ (M *ᵥ ν)) ≤ η ^ 2 * S := mul_le_mul_of_nonneg_left hle1 (sq_nonneg _)
    have z4 : η ^ 2 * (ν ⬝ᵥ D *ᵥ ν) ≤ η ^ 2 * (μ * (ν ⬝ᵥ ν)) := mul_le_mul_of_nonneg_left y3 (sq_nonneg _)
    have z5 : η * (μ * (σ * (ν ⬝ᵥ ν))) ≤ η * (μ * S) := mul_le_mul_of_nonneg_left (mul_le_mul_of_nonneg_left hseen hμ) hη0.le
    have z6 : η * (σ * (S - 0)) + η * (μ * S) = m * σ * S := by rw [← hηm]; ring
    have z7 : η * S + η * (μ * (ν ⬝ᵥ ν)) ≤ m * S := by
      have : σ * (η * S + η * (μ * (ν ⬝ᵥ ν))) ≤ σ * (m * S) := by linarith
      exact le_of_mul_le_mul_left this hσ
    have z8 := mul_le_mul_of_nonneg_left z7 hη0.le
    linarith
  linarith

/-- Between two choices of values, the loss sags. -/
theorem robust_midpoint (hE : Props.UsesDefaultRetraction C (Graph.variablesOf fs)) {σ : ℝ}
    (hD : DeterminesInner F C fs (Graph.variablesOf fs) σ) {x y : Var → Value ℝ} {a b : Assign ℝ}
    (ha : Holds C fs (Graph.variablesOf fs) x a) (hla : a.layout = g.layout) (hb : Holds C fs (Graph.variablesOf fs) y b)
    (hlb : b.layout = g.layout) {L m : ℝ} (hm : SmallFor fs L m) (hx : totalLoss F fs x ≤ L) (hy : totalLoss F fs y ≤ L) :
    ∃ z e, Holds C fs (Graph.variablesOf fs) z e ∧ e.layout = g.layout ∧
      2 * totalLoss F fs z + m * σ / 2 * sqDist (Graph.variablesOf fs) x y ≤ totalLoss F fs x + totalLoss F fs y := by
  obtain ⟨g', hg', hT⟩ := total_graph (F := F) hC hfs hne
  rw [hg] at hg'; cases hg'
  obtain ⟨g', hg', hG⟩ := graph_ok (F := F) hfs hne
  rw [hg] at hg'; cases hg'
  have hS := hT.sane
  obtain ⟨d, hd, hdb⟩ := Props.retract_reaches hS hE hb.assignment hlb ha.assignment hla
  have hd : d.length = g.localLayout.dim := hd
  obtain ⟨e, he1, he2, he3⟩ := Props.holds_retract hC hG hb hlb (d := d.map (1 / 2 * ·)) (by simpa using hd)
  obtain ⟨z, hz⟩ : ∃ z : Var → Value ℝ, z = fun v => (C v.ty).retract (y v) (block C ⟨d.map (1 / 2 * ·), g.localLayout⟩ v) := ⟨_, rfl⟩
  rw [← hz] at he3
  obtain ⟨c, r, hc⟩ := hT.cost e he3.assignment he2
  obtain ⟨A, hA, -⟩ := hT.jacobian e e c r he3.assignment he2 he3.assignment he2 hc
  obtain ⟨hwf, hsh, -⟩ := robust_view hC hfs hne hsimple haff hg he3 he2 hc hA
  have hs2 : A.shape.2 = g.localLayout.dim := by rw [hsh]
  obtain ⟨u, hu1, hu2⟩ := Props.retract_reaches hS hE he3.assignment he2 ha.assignment hla
  obtain ⟨v, hv1, hv2⟩ := Props.retract_reaches hS hE he3.assignment he2 hb.assignment hlb
  obtain ⟨i1, i2, -, i4⟩ := Props.retract_entries hS hE hb.assignment hlb hd hdb
  obtain ⟨j1, j2, -, j4⟩ := Props.retract_entries hS hE hb.assignment hlb
    (show (d.map (1 / 2 * ·)).length = g.localLayout.dim by simpa using hd) he1
  obtain ⟨k1, k2, -, k4⟩ := Props.retract_entries hS hE he3.assignment he2 hu1 hu2
  obtain ⟨l1, l2, -, l4⟩ := Props.retract_entries hS hE he3.assignment he2 hv1 hv2
  have half : ∀ i, (d.map ((1 / 2 : ℝ) * ·)).getD i 0 = d.getD i 0 / 2 := by
    intro i
    simp only [List.getD_eq_getElem?_getD, List.getElem?_map]
    cases d[i]? <;> simp
    ring
  have hu : vec u A.shape.2 = (1 / 2 : ℝ) • vec d A.shape.2 := by
    funext i
    have h1 := i4 i.1
    have h2 := j4 i.1
    have h3 := k4 i.1
    rw [half] at h2
    simp only [Spec.vec, Pi.smul_apply, smul_eq_mul]
    linarith
  have hv : vec v A.shape.2 = -((1 / 2 : ℝ) • vec d A.shape.2) := by
    funext i
    have h2 := j4 i.1
    have h3 := l4 i.1
    rw [half] at h2
    simp only [Spec.vec, Pi.neg_apply, Pi.smul_apply, smul_eq_mul]
    linarith
  have hu1 : u.length = A.shape.2 := hu1.trans hs2.symm
  have hv1 : v.length = A.shape.2 := hv1.trans hs2.symm
  have hdl : d.length = A.shape.2 := hd.trans hs2.symm
  obtain ⟨p, p', hp, -, -, hlow⟩ := robust_along hC hfs hne hsimple haff hg he3 he2 hc hA hu1 hu2 ha
  obtain ⟨q, q', hq, -, -, hlow'⟩ := robust_along hC hfs hne hsimple haff hg he3 he2 hc hA hv1 hv2 hb
  have hzL : totalLoss F fs z ≤ L := by
    have h1 := hlow L 0 (.inl rfl)
    have h2 := hlow' L 0 (.inl rfl)
    rw [hu, mulVec_smul, smul_dotProduct] at h1
    rw [hv, mulVec_neg, mulVec_smul, neg_dotProduct, smul_dotProduct] at h2
    linarith
  have h1 := hlow L m (.inr ⟨hm, hzL, hx⟩)
  have h2 := hlow' L m (.inr ⟨hm, hzL, hy⟩)
  rw [hu, mulVec_smul, smul_dotProduct] at h1
  rw [hv, mulVec_neg, mulVec_smul, neg_dotProduct, smul_dotProduct] at h2
  have sx := stores_of_holds hC ha
  have sy := stores_of_holds hC hb
  have sz := stores_of_holds hC he3
  have o1 := hD x z p' p (fun v hv => ⟨sx.2 v hv, sz.2 v hv⟩) fun f hf => ⟨(hp f hf).2, (hp f hf).1⟩
  have o2 := hD y z q' q (fun v hv => ⟨sy.2 v hv, sz.2 v hv⟩) fun f hf => ⟨(hq f hf).2, (hq f hf).1⟩
  have t1 := step_distance hC hfs hne hg hE he3 he2 hs2 hu1 hu2 ha
  have t2 := step_distance hC hfs hne hg hE he3 he2 hs2 hv1 hv2 hb
  have t3 := step_distance hC hfs hne hg hE hb hlb hs2 hdl hdb ha
  rw [hu, smul_dotProduct, dotProduct_smul] at t1
  rw [hv, neg_dotProduct, dotProduct_neg, smul_dotProduct, dotProduct_smul] at t2
  simp only [smul_eq_mul, neg_neg] at t1 t2 h1 h2
  rw [t1] at o1
  rw [t2] at o2
  refine ⟨z, e, he3, he2, ?_⟩
  rw [t3]
  have w1 := mul_le_mul_of_nonneg_left o1 hm.1.le
  have w2 := mul_le_mul_of_nonneg_left o2 hm.1.le
  linarith

omit hne hsimple haff hg in
theorem totalLoss_nonneg {vars : List Var} {val : Var → Value ℝ} {a : Assign ℝ} (h : Holds C fs vars val a) : 0 ≤ totalLoss F fs val := by
  have : ∀ f, ∃ u, f ∈ fs → innerAt F val f = .ok u := by
    intro f
    by_cases hf : f ∈ fs
    · obtain ⟨u, h1, -⟩ := factor_inner (hfs f hf) (h.valuesFor hC hf)
      exact ⟨u, fun _ => h1⟩
    · exact ⟨[], fun h => absurd h hf⟩
  choose p hp using this
  rw [(totalLoss_eq hC hfs h hp).2.1]
  apply List.sum_nonneg
  intro x hx
  obtain ⟨f', hf', rfl⟩ := List.mem_map.1 hx
  exact lossOf_nonneg (hfs f' hf').noise (Real.sqrt_nonneg _)

/-- The loss has a minimizer. -/
theorem robust_minimizer (hE : Props.UsesDefaultRetraction C (Graph.variablesOf fs)) {σ : ℝ} (hσ : 0 < σ)
    (hD : DeterminesInner F C fs (Graph.variablesOf fs) σ) : ∃ y b, Holds C fs (Graph.variablesOf fs) y b ∧ b.layout = g.layout ∧
      ∀ z e, Holds C fs (Graph.variablesOf fs) z e → e.layout = g.layout → totalLoss F fs y ≤ totalLoss F fs z := by
  obtain ⟨g', hg', hT⟩ := total_graph (F := F) hC hfs hne
  rw [hg] at hg'; cases hg'
  obtain ⟨g', hg', hG⟩ := graph_ok (F := F) hfs hne
  rw [hg] at hg'; cases hg'
  have hS := hT.sane
  have hs := variablesOf_spec fs
  have hasg : ∀ s : Fin g.layout.dim → ℝ, IsAssignmentOf C (Graph.variablesOf fs) ⟨List.ofFn s, g.layout⟩ := by
    intro s
    refine ⟨hs.1, ?_, by simp⟩
    simp only [hG.layout]
    rfl
  have holds : ∀ s : Fin g.layout.dim → ℝ, ∃ val, Holds C fs (Graph.variablesOf fs) val ⟨List.ofFn s, g.layout⟩ := by
    intro s
    have hfl : g.layout.localFlag = false := by rw [hG.layout]; rfl
    obtain ⟨f, hf⟩ := exists_rep (hasg s)
    have hf' := hf
    simp only [hfl] at hf'
    exact ⟨fun v => unravel (C v.ty).default (f v), hasg s, hfl, hs.2, fun v hv => hf'.getValue_ok hv⟩
  choose val hval using holds
  have onto : ∀ z e, Holds C fs (Graph.variablesOf fs) z e → e.layout = g.layout →
      ∃ s, e = ⟨List.ofFn s, g.layout⟩ ∧ totalLoss F fs z = totalLoss F fs (val s) := by
    intro z e he hle
    have hl : e.storage.length = g.layout.dim := by rw [he.assignment.2.2, hle]
    refine ⟨fun i => e.storage[i.1], ?_, ?_⟩
    · obtain ⟨st, ly⟩ := e
      simp only at hle hl ⊢
      subst hle
      congr 1
      apply List.ext_getElem (by simp [hl])
      intro i h1 h2
      simp
    · apply totalLoss_congr
      intro f hf
      have e1 : e = ⟨List.ofFn fun i : Fin g.layout.dim => e.storage[i.1], g.layout⟩ := by
        obtain ⟨st, ly⟩ := e
        simp only at hle hl ⊢
        subst hle
        congr 1
        apply List.ext_getElem (by simp [hl])
        intro i h1 h2
        simp
      rw [e1] at he
      exact holds_unique he (hval _) hf
  obtain ⟨φ, hφ⟩ : ∃ φ : (Fin g.layout.dim → ℝ) → ℝ, φ = fun s => totalLoss F fs (val s) := ⟨_, rfl⟩
  have h0 : ∀ s, 0 ≤ φ s := fun s => by rw [hφ]; exact totalLoss_nonneg hC hfs (hval s)
  have hsup : ∀ s, ∃ w : Fin g.layout.dim → ℝ, ∀ t, φ s + w ⬝ᵥ (t - s) ≤ φ t := by
    intro s
    obtain ⟨c, r, hc⟩ := hT.cost _ (hasg s) rfl
    obtain ⟨A, hA, -⟩ := hT.jacobian _ _ c r (hasg s) rfl (hasg s) rfl hc
    obtain ⟨hwf, hsh, -⟩ := robust_view hC hfs hne hsimple haff hg (hval s) rfl hc hA
    have hs2 : A.shape.2 = g.localLayout.dim := by rw [hsh]
    have hdim : g.layout.dim = A.shape.2 := by
      obtain ⟨d, d1, d2⟩ := Props.retract_reaches hS hE (hasg s) rfl (hasg s) rfl
      obtain ⟨e1, -⟩ := Props.retract_entries hS hE (hasg s) rfl d1 d2
      rw [List.length_ofFn] at e1
      rw [e1, d1, hs2]
      rfl
    refine ⟨fun i => 2 * ((cooMatrix A A.shape.1 A.shape.2)ᵀ *ᵥ vec r A.shape.1) (Fin.cast hdim i), fun t => ?_⟩
    obtain ⟨d, d1, d2⟩ := Props.retract_reaches hS hE (hasg s) rfl (hasg t) rfl
    obtain ⟨e1, e2, -, e4⟩ := Props.retract_entries hS hE (hasg s) rfl d1 d2
    have d1 : d.length = A.shape.2 := d1.trans hs2.symm
    obtain ⟨_, _, -, -, -, hlow⟩ := robust_along hC hfs hne hsimple haff hg (hval s) rfl hc hA d1 d2 (hval t)
    have h1 := hlow 0 0 (.inl rfl)
    rw [hφ]
    simp only
    have h2 : (cooMatrix A A.shape.1 A.shape.2 *ᵥ vec d A.shape.2) ⬝ᵥ vec r A.shape.1 =
        ((cooMatrix A A.shape.1 A.shape.2)ᵀ *ᵥ vec r A.shape.1) ⬝ᵥ vec d A.shape.2 := by
      rw [mulVec_transpose, ← dotProduct_mulVec, dotProduct_comm]
    have h3 : (fun i : Fin g.layout.dim => 2 * ((cooMatrix A A.shape.1 A.shape.2)ᵀ *ᵥ vec r A.shape.1) (Fin.cast hdim i)) ⬝ᵥ (t - s) =
        2 * (((cooMatrix A A.shape.1 A.shape.2)ᵀ *ᵥ vec r A.shape.1) ⬝ᵥ vec d A.shape.2) := by
      have h4 : ∀ i : Fin g.layout.dim, (t - s) i = vec d A.shape.2 (Fin.cast hdim i) := by
        intro i
        have := e4 i.1
        rw [getD_lt _ (by simp), getD_lt _ (by simp), List.getElem_ofFn, List.getElem_ofFn] at this
        simp only [Spec.vec, Pi.sub_apply, Fin.val_cast]
        linarith
      simp only [dotProduct, h4, Finset.mul_sum]
      rw [← Fin.sum_congr' _ hdim]
      exact Finset.sum_congr rfl fun i _ => by ring
    rw [h3, ← h2]
    linarith
  obtain ⟨m, hm⟩ := smallFor_exists hfs (h0 0)
  have hgrow : ∀ t, φ t ≤ φ 0 → m * σ / 2 * ((t - 0) ⬝ᵥ (t - 0)) ≤ φ t + φ 0 := by
    intro t ht
    have ht' : totalLoss F fs (val t) ≤ φ 0 := by rw [hφ] at ht ⊢; exact ht
    obtain ⟨z, e, z1, z2, z3⟩ := robust_midpoint hC hfs hne hsimple haff hg hE hD (hval t) rfl (hval 0) rfl hm ht' (by rw [hφ])
    have z4 := totalLoss_nonneg hC hfs z1
    rw [← sqDist_storage (stores_of_holds hC (hval t)) (stores_of_holds hC (hval 0))] at z3
    have z5 : sqNorm (List.zipWith (· - ·) (List.ofFn t) (List.ofFn (0 : Fin g.layout.dim → ℝ))) = (t - 0) ⬝ᵥ (t - 0) := by
      rw [sqNorm_eq (n := g.layout.dim) (by simp)]
      have : vec (List.zipWith (· - ·) (List.ofFn t) (List.ofFn (0 : Fin g.layout.dim → ℝ))) g.layout.dim = t - 0 := by
        funext i
        rw [vec_eq (by simp), List.getElem_zipWith, List.getElem_ofFn, List.getElem_ofFn]
        rfl
      rw [this]
    simp only [z5] at z3
    rw [hφ]
    simp only
    linarith
  obtain ⟨s, hmin⟩ := minimizer_exists φ h0 hsup 0 (show 0 < m * σ / 2 by have := mul_pos hm.1 hσ; linarith) hgrow
  refine ⟨val s, _, hval s, rfl, fun z e he hle => ?_⟩
  obtain ⟨t, -, h2⟩ := onto z e he hle
  rw [h2]
  have := hmin t
  rw [hφ] at this
  exact this

end

end Jaxfg
