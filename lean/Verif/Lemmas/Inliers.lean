/- Solving a problem whose residuals stay below the thresholds of its Huber wrappers. -/
import Verif.Spec.Inliers
import Verif.Lemmas.OrderSim

namespace Jaxfg
open Matrix hiding vec
open Spec
open Ext (fin)

/-! ### Noise models -/

theorem noiseDim_strip (N : Noise) : noiseDim (stripHuber N) = noiseDim N := by
  induction N with
  | huber w δ ih => exact ih
  | _ => rfl

theorem noiseWF_strip {N : Noise} {n m : Nat} (h : NoiseWF N n m) : NoiseWF (stripHuber N) n m := by
  induction N with
  | huber w δ ih => exact ih h.1
  | _ => exact h

theorem strip_strip (N : Noise) : stripHuber (stripHuber N) = stripHuber N := by
  induction N with
  | huber w δ ih => exact ih
  | _ => rfl

theorem below_strip (N : Noise) (x : ℝ) : BelowThresholds (stripHuber N) x := by
  induction N with
  | huber w δ ih => exact ih
  | _ => trivial

theorem whiten_strip {N : Noise} {n m : Nat} (h : NoiseWF N n m) {r w : List ℝ} (hw : (stripHuber N).whiten r = .ok w)
    (hb : BelowThresholds N (norm2 w)) : N.whiten r = .ok w := by
  induction N with
  | huber v δ ih =>
    obtain ⟨h1, d, rfl, -⟩ := h
    have := ih h1 hw hb.2
    have hlt : norm2 w < d := hb.1 d (by simp)
    simp only [Noise.whiten, this, Arr.scalar, py_bind_ok, py_pure, hlt, if_true]
  | _ => exact hw

theorem whitenJacobian_strip {N : Noise} {n m : Nat} (h : NoiseWF N n m) {r : List ℝ} {J : Arr ℝ} (hb : BelowThresholds N (norm2 r)) :
    N.whitenJacobian J r = (stripHuber N).whitenJacobian J r := by
  induction N with
  | huber v δ ih =>
    obtain ⟨h1, d, rfl, -⟩ := h
    have := ih h1 hb.2
    have hlt : norm2 r < d := hb.1 d (by simp)
    show _ = (stripHuber v).whitenJacobian J r
    rw [← this]
    simp only [Noise.whitenJacobian, Arr.scalar]
    cases v.whitenJacobian J r with
    | error e => rfl
    | ok R => simp only [py_bind_ok, py_pure, hlt, if_true]
  | _ => rfl

/-! ### Factors -/

theorem plain_plain (f : Factor) : plain (plain f) = plain f := by simp [plain, strip_strip]

theorem rdim_plain (f : Factor) : rdim (plain f) = rdim f := noiseDim_strip f.noise

section
variable {F : Nat → FactorClass} {C : Ty → VarClass ℝ} {fs : List Factor}

theorem residual_plain {f : Factor} (hb : NoiseBlind (F f.cls)) (vals : List (Value ℝ)) :
    (F (plain f).cls).residual (plain f).self vals = (F f.cls).residual f.self vals := (hb f.self _ vals).1

theorem jacobians_plain {f : Factor} (hb : NoiseBlind (F f.cls)) (vals : List (Value ℝ)) :
    (F (plain f).cls).jacobians (plain f).self vals = (F f.cls).jacobians f.self vals := (hb f.self _ vals).2

theorem factorWF_noise {f : Factor} (hb : NoiseBlind (F f.cls)) (h : FactorWF F C f) {N : Noise} (hN : NoiseWF N (rdim f) (rdim f))
    (hd : noiseDim N = rdim f) : FactorWF F C { f with noise := N } where
  pos := by show 0 < noiseDim N; rw [hd]; exact h.pos
  vars := h.vars
  noise := by show NoiseWF N (noiseDim N) (noiseDim N); rw [hd]; exact hN
  params := h.params
  hint := h.hint
  residual := fun vals hv => by
    have e : (F f.cls).residual ({ f with noise := N } : Factor).self vals = (F f.cls).residual f.self vals := (hb f.self _ vals).1
    show ((F f.cls).residual ({ f with noise := N } : Factor).self vals).length = noiseDim N
    rw [hd, e]; exact h.residual vals hv
  jacobians := fun vals hv => by
    have e : (F f.cls).jacobians ({ f with noise := N } : Factor).self vals = (F f.cls).jacobians f.self vals := (hb f.self _ vals).2
    have e2 : rdim { f with noise := N } = rdim f := hd
    rw [e2]
    show List.Forall₂ _ f.vars ((F f.cls).jacobians ({ f with noise := N } : Factor).self vals)
    rw [e]; exact h.jacobians vals hv

theorem factorWF_plain {f : Factor} (hb : NoiseBlind (F f.cls)) (h : FactorWF F C f) : FactorWF F C (plain f) :=
  factorWF_noise hb h (noiseWF_strip h.noise) (noiseDim_strip _)

theorem variablesOf_plain (fs : List Factor) : Graph.variablesOf (fs.map plain) = Graph.variablesOf fs := by
  unfold Graph.variablesOf
  rw [List.foldl_map]
  rfl

theorem evalOrder_plain {fs fs' : List Factor} (h : fs.map plain = fs'.map plain) :
    ((evalOrder fs).map plain).Perm ((evalOrder fs').map plain) :=
  ((groupedBy_perm kind fs).map plain).trans (by rw [h]; exact ((groupedBy_perm kind fs').map plain).symm)

theorem holds_plain {vars : List Var} {val : Var → Value ℝ} {a : Assign ℝ} (h : Holds C fs vars val a) : Holds C (fs.map plain) vars val a :=
  ⟨h.assignment, h.isGlobal, fun v => by
    rw [h.sameVars]
    exact ⟨fun ⟨f, hf, hv⟩ => ⟨plain f, List.mem_map.2 ⟨f, hf, rfl⟩, hv⟩, fun ⟨f, hf, hv⟩ => by
      obtain ⟨f0, h0, rfl⟩ := List.mem_map.1 hf
      exact ⟨f0, h0, hv⟩⟩, h.values⟩

/-! ### The two problems -/

/-- Residual vectors with the same piece for every factor. -/
def PlainQ (fs fs' : List Factor) : List ℝ → List ℝ → Prop := Blocks ((evalOrder fs).map plain) ((evalOrder fs').map plain) rdim

/-- Jacobians with the same rows, in another order. -/
def PlainJ (fs fs' : List Factor) {m n : Nat} (ρ : Equiv.Perm (Fin m)) (A A' : Coo ℝ) : Prop :=
  Reordered ρ (1 : Equiv.Perm (Fin n)) A A' ∧
    ((∀ f ∈ fs, f.vars.Nodup) → (A.rows.zip A.cols).Nodup ∧ (A'.rows.zip A'.cols).Nodup) ∧
    ∀ d y, d.length = n → A.matmul d = .ok y → ∃ y', A'.matmul d = .ok y' ∧ PlainQ fs fs' y y'

variable {fs' : List Factor} {g g' : Graph} {L : LinSolver ℝ}

theorem mem_plain (h : fs.map plain = fs'.map plain) {f : Factor} (hf : f ∈ fs') : ∃ f0 ∈ fs, plain f0 = plain f :=
  List.mem_map.1 (h ▸ List.mem_map.2 ⟨f, hf, rfl⟩)

theorem variablesOf_same (h : fs.map plain = fs'.map plain) : Graph.variablesOf fs' = Graph.variablesOf fs := by
  rw [← variablesOf_plain fs, h, variablesOf_plain]

theorem total_plain (l : List Factor) : total rdim (l.map plain) = total rdim l := by
  simp only [total, List.map_map, Function.comp_def, rdim_plain]

theorem Spec.Permuted.one_eq {n : Nat} {x x' : List ℝ} (h : Permuted (1 : Equiv.Perm (Fin n)) x x') : x' = x :=
  ext_vec h.len' h.len (by rw [h.entry]; rfl)

theorem permuted_one {n : Nat} {x : List ℝ} (h : x.length = n) : Permuted (1 : Equiv.Perm (Fin n)) x x := ⟨h, h, rfl⟩

/-- `cost` evaluates the problem `fs`, but possibly not everywhere, and only where all factors of both problems are inliers. -/
theorem inliers_sim (hC : GoodClasses C) (hp : fs.map plain = fs'.map plain) (hfs : ∀ f ∈ fs, FactorWF F C f)
    (hfs' : ∀ f ∈ fs', FactorWF F C f) (hne : fs ≠ []) (hb : ∀ f ∈ fs ++ fs', NoiseBlind (F f.cls))
    (hg : GraphOf F C fs g) (hg' : GraphOf F C fs' g')
    (hnd : (∀ f ∈ fs, f.vars.Nodup) → g.jacobianCoords.Nodup ∧ g'.jacobianCoords.Nodup)
    (hL : OrderFree L ∨ OrderFreeDistinct L ∧ ∀ f ∈ fs, f.vars.Nodup)
    {cost : Assign ℝ → Py (ℝ × List ℝ)} (hcost : ∀ {a p}, cost a = .ok p → g.computeCost F C a = .ok p)
    (hin : ∀ {a p vars val}, cost a = .ok p → Holds C fs vars val a → ∀ f ∈ fs ++ fs', Inlier F f (f.vars.map val)) :
    ∃ ρ : Equiv.Perm (Fin g.residualDim),
      Sim C C { g.ops F C with computeCost := cost } (g'.ops F C) L L
        (fun a a' => a' = a ∧ ∃ val, Stores C (Graph.variablesOf fs) val a) (PlainQ fs fs')
        (fun d d' => d' = d ∧ d.length = g.localLayout.dim) (PlainJ (n := g.localLayout.dim) fs fs' ρ) := by
  have hs := variablesOf_spec fs
  have hs' : ∀ v, v ∈ Graph.variablesOf fs ↔ ∃ f ∈ fs', v ∈ f.vars := fun v => by rw [← variablesOf_same hp]; exact (variablesOf_spec fs').2 v
  have hbl : ∀ f ∈ fs, NoiseBlind (F f.cls) := fun f hf => hb f (List.mem_append.2 (.inl hf))
  have hbr : ∀ f ∈ fs', NoiseBlind (F f.cls) := fun f hf => hb f (List.mem_append.2 (.inr hf))
  have hfs0 : ∀ f ∈ fs.map plain, FactorWF F C f := by
    intro f hf
    obtain ⟨f0, h0, rfl⟩ := List.mem_map.1 hf
    exact factorWF_plain (hbl f0 h0) (hfs f0 h0)
  have hne' : fs' ≠ [] := by
    rintro rfl
    exact hne (by simpa using hp)
  have hpe := evalOrder_plain hp
  have hm : total rdim ((evalOrder fs).map plain) = g.residualDim := by rw [total_plain, hg.residualDim]
  have hm' : g'.residualDim = g.residualDim := by
    rw [hg'.residualDim, ← hm, total_perm hpe, total_plain]
  have hll : g'.localLayout = g.localLayout := by rw [hg.localLayout, hg'.localLayout, variablesOf_same hp]
  obtain ⟨ρ, hρ⟩ := blocks_positions (dim := rdim) hpe hm
  have left : ∀ {f}, f ∈ fs → plain f ∈ fs.map plain := fun hf => List.mem_map.2 ⟨_, hf, rfl⟩
  have right : ∀ {f}, f ∈ fs' → plain f ∈ fs.map plain := fun hf => by rw [hp]; exact List.mem_map.2 ⟨_, hf, rfl⟩
  -- pieces of residual vectors are determined by the vector
  have pieces : ∀ {a val c r}, Stores C (Graph.variablesOf fs) val a → cost a = .ok (c, r) →
      ∃ w : Factor → List ℝ, (∀ f ∈ fs.map plain, (w f).length = rdim f) ∧ (∀ f ∈ fs ++ fs', whitenedAt F val f = .ok (w (plain f)) ∧
        BelowThresholds f.noise (norm2 (w (plain f)))) ∧
      c = (fs.map fun f => sqNorm (w (plain f))).sum ∧ r = (evalOrder fs).flatMap fun f => w (plain f) := by
    intro a val c r h1 hc
    have k := h1.holds hs.2
    have k0 := holds_plain k
    obtain ⟨w, hw⟩ := k0.whitened hC hfs0
    have hW : ∀ f ∈ fs ++ fs', whitenedAt F val f = .ok (w (plain f)) ∧ BelowThresholds f.noise (norm2 (w (plain f))) := by
      intro f hf
      have h0 : plain f ∈ fs.map plain := (List.mem_append.1 hf).elim left right
      have hn : NoiseWF f.noise (rdim f) (rdim f) := (List.mem_append.1 hf).elim (fun h => (hfs f h).noise) fun h => (hfs' f h).noise
      have x1' : (stripHuber f.noise).whiten ((F f.cls).residual f.self (f.vars.map val)) = .ok (w (plain f)) := by
        rw [← residual_plain (hb f hf)]; exact (hw _ h0).1
      have x3 := hin hc k f hf _ x1'
      exact ⟨whiten_strip hn x1' x3, x3⟩
    have e1 := Props.cost_ok _ _ hC hne hfs hg k (w := fun f => w (plain f)) fun f hf => (hW f (List.mem_append.2 (.inl hf))).1
    have e2 := hcost hc
    rw [e1] at e2
    cases e2
    exact ⟨w, fun f hf => (hw f hf).2, hW, rfl, rfl⟩
  have memo : ∀ {f}, f ∈ (evalOrder fs).map plain → f ∈ fs.map plain := fun hf => by
    obtain ⟨f0, h0, rfl⟩ := List.mem_map.1 hf
    exact left (mem_groupedBy.1 h0)
  refine ⟨ρ, ?_⟩
  constructor
  case cost =>
    rintro a _ c r ⟨rfl, val, h1⟩ hc
    obtain ⟨w, hl, hw, rfl, rfl⟩ := pieces h1 hc
    have e2 := Props.cost_ok _ _ hC hne' hfs' hg' (h1.holds hs') (w := fun f => w (plain f))
      fun f hf => (hw f (List.mem_append.2 (.inr hf))).1
    refine ⟨(evalOrder fs').flatMap fun f => w (plain f), ?_, w, fun f hf => hl f (memo hf), by rw [List.flatMap_map], by rw [List.flatMap_map]⟩
    have := congrArg (fun l => (l.map fun f => sqNorm (w f)).sum) hp
    simp only [List.map_map, Function.comp_def] at this
    rw [this]
    exact e2
  case jac =>
    rintro a _ r r' A ⟨rfl, val, h1⟩ ⟨hQ, a0, _, c, ⟨rfl, val0, h2⟩, hc⟩ hA
    obtain ⟨w, hl, hw, -, rfl⟩ := pieces h2 hc
    have hQ2 : PlainQ fs fs' ((evalOrder fs).flatMap fun f => w (plain f)) ((evalOrder fs').flatMap fun f => w (plain f)) :=
      ⟨w, fun f hf => hl f (memo hf), by rw [List.flatMap_map], by rw [List.flatMap_map]⟩
    obtain rfl := (hρ _ _ hQ).unique (hρ _ _ hQ2)
    have k1 := h1.holds hs.2
    have k0 := holds_plain k1
    obtain ⟨R, hR⟩ : ∃ R : Factor → List (Arr ℝ), ∀ f ∈ fs.map plain,
        ((F f.cls).jacobians f.self (f.vars.map val)).mapM (fun J => f.noise.whitenJacobian J (w f)) = .ok (R f) := by
      have : ∀ f : Factor, ∃ R', f ∈ fs.map plain →
          ((F f.cls).jacobians f.self (f.vars.map val)).mapM (fun J => f.noise.whitenJacobian J (w f)) = .ok R' :=
        fun f => by
          by_cases hf : f ∈ fs.map plain
          · obtain ⟨R', e1, e2⟩ := whitenedJacobians_ok (hfs0 f hf) (k0.valuesFor hC hf) (hl f hf)
            exact ⟨R', fun _ => e1⟩
          · exact ⟨[], fun h => absurd h hf⟩
      choose R hR using this
      exact ⟨R, hR⟩
    have hR' : ∀ f ∈ fs ++ fs', ((F f.cls).jacobians f.self (f.vars.map val)).mapM (fun J => f.noise.whitenJacobian J (w (plain f))) =
        .ok (R (plain f)) := by
      intro f hf
      have h0 : plain f ∈ fs.map plain := (List.mem_append.1 hf).elim left right
      have hn : NoiseWF f.noise (rdim f) (rdim f) := (List.mem_append.1 hf).elim (fun h => (hfs f h).noise) fun h => (hfs' f h).noise
      have := hR (plain f) h0
      rw [jacobians_plain (hb f hf)] at this
      rw [← this]
      congr 1
      funext J
      exact whitenJacobian_strip hn (hw f hf).2
    have hlen : ∀ f, plain f ∈ fs.map plain → (w (plain f)).length = rdim f := fun f hf => by rw [hl _ hf, rdim_plain]
    obtain ⟨A0, e1, -, e3, e4, e5, -, e7⟩ := jacobian_explicit hC hfs hne hg k1 (ρ := fun f => w (plain f)) (R := fun f => R (plain f))
      (fun f hf => hlen f (left hf)) fun f hf => hR' f (List.mem_append.2 (.inl hf))
    obtain ⟨A1, f1, -, f3, f4, f5, -, f7⟩ := jacobian_explicit hC hfs' hne' hg' (h1.holds hs') (ρ := fun f => w (plain f))
      (R := fun f => R (plain f)) (fun f hf => hlen f (right hf)) fun f hf => hR' f (List.mem_append.2 (.inr hf))
    obtain rfl : A0 = A := by
      have hA : g.computeWhitenedResidualJacobian F C _ _ = .ok A := hA
      rw [e1] at hA; exact Except.ok.inj hA
    have prod : ∀ d y, d.length = g.localLayout.dim → A0.matmul d = .ok y → ∃ y', A1.matmul d = .ok y' ∧ PlainQ fs fs' y y' := by
      intro d y l1 hy
      rw [e7 _ l1] at hy
      cases hy
      refine ⟨_, f7 _ (by rw [l1, hll]), facProd C (posIn g.localLayout) R d, fun f _ => length_facProd, ?_, ?_⟩ <;>
      · rw [List.flatMap_map]
        try rw [hll]
        apply List.flatMap_congr
        intro f _
        unfold facProd
        rw [rdim_plain]
        rfl
    refine ⟨A1, f1, ⟨e3, f3, e4, by rw [f4, hm', hll], ?_⟩, fun h => by rw [e5, f5]; exact hnd h, prod⟩
    funext i j
    have hx : vec (ofVec (Pi.single j (1 : ℝ))) g.localLayout.dim = Pi.single j 1 := vec_ofVec _
    have hlx : (ofVec (Pi.single j (1 : ℝ))).length = g.localLayout.dim := length_ofVec _
    obtain ⟨y, hy1, hy2, hy3⟩ := matmul_ok e3 (x := ofVec (Pi.single j (1 : ℝ))) (by rw [hlx, e4])
    obtain ⟨y', hz1, hz2⟩ := prod _ _ hlx hy1
    obtain ⟨q1, -, q3⟩ := matmul_vec f3 hz1
    have py := hρ _ _ hz2
    rw [e4] at hy3
    rw [f4] at q3
    simp only at hy3 q3
    rw [hx, mulVec_single_one] at hy3
    have q3' : vec y' g.residualDim = cooMatrix A1 g.residualDim g.localLayout.dim *ᵥ vec (ofVec (Pi.single j (1 : ℝ))) g.localLayout.dim := by
      rw [hm', hll] at q3; exact q3
    rw [hx, mulVec_single_one, py.entry, hy3] at q3'
    exact (congrFun q3' i).symm
  case grad =>
    rintro A A' r r' z ⟨h1, -⟩ hr hz
    obtain ⟨z', h3, h4⟩ := h1.T.matmul (hρ _ _ hr) hz
    exact ⟨z', h3, h4.one_eq, h4.len⟩
  case mul =>
    rintro A A' d _ y ⟨-, -, h3⟩ ⟨rfl, hd⟩ hy
    exact h3 _ _ hd hy
  case linear =>
    rintro A A' b _ l i x ⟨h1, h2, -⟩ ⟨rfl, hb⟩ hx
    rcases hL with hL | ⟨hL, hv⟩
    · obtain ⟨x', k1, k2⟩ := hL _ _ ρ 1 A A' _ _ x l i h1 (permuted_one hb) hx
      exact ⟨x', k1, k2.one_eq, k2.len⟩
    · obtain ⟨x', k1, k2⟩ := hL _ _ ρ 1 A A' _ _ x l i h1 (h2 hv).1 (h2 hv).2 (permuted_one hb) hx
      exact ⟨x', k1, k2.one_eq, k2.len⟩
  case retract =>
    rintro _ a _ d b ⟨rfl, val, h1⟩ ⟨rfl, hd⟩ hb
    rw [hg.localLayout] at hd
    obtain ⟨e, he⟩ := exists_rep (a := ⟨d, Layout.make C (Graph.variablesOf fs) true⟩) (C := C) (vars := Graph.variablesOf fs)
      ⟨hs.1, rfl, hd⟩
    have hb : a.manifoldRetract C ⟨d, g.localLayout⟩ = .ok b := hb
    rw [hg.localLayout] at hb
    obtain ⟨b1, k1, k2⟩ := h1.retract hC he
    obtain rfl : b1 = b := Except.ok.inj (k1.symm.trans hb)
    refine ⟨b1, ?_, rfl, _, k2⟩
    show a.manifoldRetract C ⟨d, g'.localLayout⟩ = _
    rw [hll, hg.localLayout]; exact k1
  case size => rintro a _ ⟨rfl, -⟩; rfl
  case wf => rintro A A' ⟨h, -⟩; exact ⟨h.wf, h.wf'⟩
  case qlen => exact fun h h2 e => by rw [← (h.perm hpe).length_eq, e, (h2.perm hpe).length_eq]
  case qneg => exact fun h => h.map _
  case qpred => exact fun h h2 => (h.zipWith hpe h2 _).sq hpe
  case qsq => exact fun h => h.sq hpe
  case dlen => rintro d _ ⟨rfl, -⟩; rfl
  case dneg => rintro d _ ⟨rfl, h⟩; exact ⟨rfl, by simpa using h⟩
  case dmul => rintro d _ c ⟨rfl, h⟩; exact ⟨rfl, by simpa using h⟩
  case dadd => rintro d _ e _ ⟨rfl, h⟩ ⟨rfl, h2⟩; exact ⟨rfl, by simp [h, h2]⟩
  case dsub => rintro d _ e _ ⟨rfl, h⟩ ⟨rfl, h2⟩; exact ⟨rfl, by simp [h, h2]⟩
  case ddot => rintro d _ e _ ⟨rfl, h⟩ ⟨rfl, h2⟩; rfl

/-- Tests of equal states give equal answers. -/
theorem equal_tests {g g' : GraphOps ℝ} (hl : g'.localLayout = g.localLayout) {P : Assign ℝ → Prop} {Pd : List ℝ → Prop}
    {Q : List ℝ → List ℝ → Prop} (t : Criteria ℝ) :
    TestSim True C C g g' (fun a a' => a' = a ∧ P a) Q (fun d d' => d' = d ∧ Pd d) t (InBounds t) := by
  rintro p p' c d _ z _ conv _ hs ⟨rfl, -⟩ ⟨rfl, -⟩ hc
  refine ⟨conv, ?_, fun _ => rfl⟩
  rw [hl, ← hc]
  unfold convergedTest gradientTest costTest parameterTest
  rw [hs.assignments.1, hs.cost, hs.iterations]

end

end Jaxfg
