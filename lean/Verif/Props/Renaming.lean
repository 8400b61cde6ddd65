/-
Property C122: which objects the variables are and of which classes does not matter. See Verif.Props.SolverReal for the setting: real
arithmetic, inside a program that also knows infinities and NaNs.
-/
import Verif.Lemmas.Renaming
import Verif.Props.OrderIndependence
import Verif.Props.SameCovariance

namespace Jaxfg.Props
open Spec SparseCovariance
open Ext (fin)

section
variable (F F' : Nat → FactorClass) (C C' : Ty → VarClass ℝ)

/-- **C122.** Two problems that differ in the identity of the variable objects, in how variables are divided into classes, in how factors
are divided into classes, and in the order of the factors and of the stored variables: from the same values, they have the same cost, and
a solver that returns for the first one returns for the second one after the same number of steps, prints the same lines and finds the
same value of every variable. (The problems may have different layouts, stacks and Jacobians.) All termination tests may be on. For
the linear solver see C73. -/
theorem C122_renaming (hC : GoodClasses C) (hC' : GoodClasses C') (ρ : Var → Var) (φ : Factor → Factor) (fs fs' : List Factor)
    (hp : Renamed F F' C C' ρ φ fs fs') (hne : fs ≠ []) (hfs : ∀ f ∈ fs, FactorWF F C f) (hfs' : ∀ f ∈ fs', FactorWF F' C' f)
    (hpos : ∀ f ∈ fs, ∀ v ∈ f.vars, 0 < (C v.ty).paramDim) :
    ∃ g g', Graph.make C fs = .ok g ∧ Graph.make C' fs' = .ok g' ∧
      ∀ CE CE' gE gE', Lifts CE gE C (g.ops F C) → Lifts CE' gE' C' (g'.ops F' C') →
      ∀ vars vars' val a a', RenamedValues C C' ρ fs fs' vars vars' val a a' →
        let O := fun o o' => o.layout = a.layout ∧ o'.layout = a'.layout ∧ ∃ val', RenamedValues C C' ρ fs fs' vars vars' val' o o'
        let Free := fun L : LinSolver ℝ => OrderFree L ∨ OrderFreeDistinct L ∧ ∀ f ∈ fs, f.vars.Nodup
        (∃ c r r', g.computeCost F C a = .ok (c, r) ∧ g'.computeCost F' C' a' = .ok (c, r')) ∧
        (∀ sE s, LiftsGN sE s → Free s.linear → SolvesAlike (sE.solve CE gE) (sE.solve CE' gE') a a' O) ∧
        (∀ sE s, LiftsLM sE s → Free s.linear → s.lambdaFactor ≠ 0 → SolvesAlike (sE.solve CE gE) (sE.solve CE' gE') a a' O) ∧
        (∀ sE s, LiftsDogleg sE s → Free s.linear → ZeroAtZero s.linear → 0 < s.radiusInitial →
          SolvesAlike (sE.solve CE gE) (sE.solve CE' gE') a a' O) ∧
        (∀ (sE : FixedIteration Ext) L, LiftsSolver sE.linear L → Free L → a.layout = g.layout → a'.layout = g'.layout →
          SolvesAlike (sE.solve CE gE) (sE.solve CE' gE') a a' O) := by
  obtain ⟨g, hg, hG⟩ := graph_ok (F := F) hfs hne
  have hne' : fs' ≠ [] := by
    obtain ⟨f, hf⟩ := List.exists_mem_of_ne_nil _ hne
    exact List.ne_nil_of_mem (hp.mem hf)
  obtain ⟨g', hg', hG'⟩ := graph_ok (F := F') hfs' hne'
  refine ⟨g, g', hg, hg', fun CE CE' gE gE' hl hl' vars vars' val a a' ha => ?_⟩
  have hnd : (∀ f ∈ fs, f.vars.Nodup) → g.jacobianCoords.Nodup ∧ g'.jacobianCoords.Nodup := by
    intro hn
    obtain ⟨g1, h1, -, -, h2, -⟩ := C19_coordinates F C hC fs hne hfs
    obtain ⟨g2, h3, -, -, h4, -⟩ := C19_coordinates F' C' hC' fs' hne' hfs'
    rw [hg] at h1; rw [hg'] at h3
    cases h1; cases h3
    refine ⟨h2 hn, h4 fun f hf => ?_⟩
    obtain ⟨k, hk, rfl⟩ := hp.exists_mem hf
    rw [hp.vars k hk]
    exact (List.nodup_map_iff_inj_on (hn k hk)).2 fun v hv w hw e => hp.distinct k hk v hv k hk w hw e
  have sim := fun L hL => renamed_sim (L := L) hC hC' hfs hfs' hne hp hG hG' hnd hL
  obtain ⟨b, b', u1, u2, hb⟩ := renamed_in hC hC' hpos hp hG hG' ha
  have hin : ∀ {x}, a.updateStorageLayout C (g.ops F C).layout = .ok x →
      ∃ x', a'.updateStorageLayout C' (g'.ops F' C').layout = .ok x' ∧ RenR C C' ρ fs fs' x x' := by
    intro x hx
    have hx : a.updateStorageLayout C g.layout = .ok x := hx
    rw [u1] at hx; cases hx
    exact ⟨b', u2, hb⟩
  have hout : ∀ {x x' o}, RenR C C' ρ fs fs' x x' → x.updateStorageLayout C a.layout = .ok o →
      ∃ o', x'.updateStorageLayout C' a'.layout = .ok o' ∧
        (o.layout = a.layout ∧ o'.layout = a'.layout ∧ ∃ val', RenamedValues C C' ρ fs fs' vars vars' val' o o') := by
    intro x x' o hx ho
    obtain ⟨o1, o1', e1, e2, e3⟩ := renamed_out hpos hp ha hx
    rw [e1] at ho; cases ho
    exact ⟨o1', e2, e3⟩
  refine ⟨?_, fun sE s hs hL fuel out log h => ?_, fun sE s hs hL hf fuel out log h => ?_,
    fun sE s hs hL hz hr fuel out log h => ?_, fun sE L hs hL h1 h2 fuel out log h => ?_⟩
  · obtain ⟨w, hw⟩ := ha.right.whitened hC' hfs'
    have e1 := cost_ok _ _ hC hne hfs hG ha.left (w := fun f => w (φ f)) fun f hf => by
      rw [← (hw (φ f) (hp.mem hf)).1]
      unfold whitenedAt
      rw [hp.noise f hf, hp.vars f hf, List.map_map, ← hp.residual f hf _ (ha.left.valuesFor hC hf)]
      rfl
    have e2 := cost_ok _ _ hC' hne' hfs' hG' ha.right fun f hf => (hw f hf).1
    refine ⟨_, _, (evalOrder fs').flatMap w, e1, ?_⟩
    rw [e2, ← (hp.factors.map fun f => sqNorm (w f)).sum_eq, List.map_map]
    rfl
  · obtain ⟨μ, σ, hS⟩ := sim _ hL
    exact hS.gnSolve hl hl' hs hs (renamed_tests hp hS _) hin hout h
  · obtain ⟨μ, σ, hS⟩ := sim _ hL
    exact hS.lmSolve hl hl' hs hs hf (renamed_tests hp hS _) hin hout h
  · obtain ⟨μ, σ, hS⟩ := sim _ hL
    exact hS.doglegSolve hl hl' hs hs hz hr (renamed_tests hp hS _) hin hout h
  · obtain ⟨μ, σ, hS⟩ := sim _ hL
    have e1 : a.updateStorageLayout C g.layout = .ok a := by
      unfold Assign.updateStorageLayout; rw [h1, hG.layout, layoutEq_refl C (variablesOf_spec _).1]; rfl
    have e2 : a'.updateStorageLayout C' g'.layout = .ok a' := by
      unfold Assign.updateStorageLayout; rw [h2, hG'.layout, layoutEq_refl C' (variablesOf_spec _).1]; rfl
    rw [e1] at u1; rw [e2] at u2; cases u1; cases u2
    obtain ⟨o, o', k1, k2, val', s1, s2⟩ := hS.fixedSolve hl hl' hs hs rfl rfl rfl hb h
    have hv := variablesOf_spec fs
    have hv' := variablesOf_spec fs'
    have l1 : o.layout = a.layout := by rw [h1, hG.layout]; exact s1.1.layout
    have l2 : o'.layout = a'.layout := by rw [h2, hG'.layout]; exact s2.1.layout
    have m1 := s1.holds hv.2
    have m2 := s2.holds hv'.2
    have same : ∀ v, v ∈ vars ↔ v ∈ Graph.variablesOf fs := fun v => by rw [ha.left.sameVars, hv.2]
    have same' : ∀ v, v ∈ vars' ↔ v ∈ Graph.variablesOf fs' := fun v => by
      rw [ha.right.sameVars, hv'.2]
    refine ⟨o, o', k1, k2, l1, l2, val', ⟨⟨ha.left.assignment.1, ?_, m1.assignment.2.2⟩, m1.isGlobal, ha.left.sameVars,
      fun v hv => m1.values v ((same v).1 hv)⟩, ⟨⟨ha.right.assignment.1, ?_, m2.assignment.2.2⟩, m2.isGlobal, ha.right.sameVars,
      fun v hv => m2.values v ((same' v).1 hv)⟩⟩
    · rw [l1]; exact ha.left.assignment.2.1
    · rw [l2]; exact ha.right.assignment.2.1

/-- **C122, covariances.** Two problems as in `C122_renaming`: `SparseCovariance.make` succeeds for one of them if and only if it succeeds for the
other one, and then `compute_marginal` returns the same matrix for the corresponding lists of variables, whatever was asked before. CHOLMOD
must not reorder (see C53). -/
theorem C122_covariances (lib : CholmodChoice) (hlib : ∀ p n, lib.order p n = 1) (hC : GoodClasses C) (hC' : GoodClasses C') (ρ : Var → Var)
    (φ : Factor → Factor) (fs fs' : List Factor) (hp : Renamed F F' C C' ρ φ fs fs') (hne : fs ≠ []) (hfs : ∀ f ∈ fs, FactorWF F C f)
    (hfs' : ∀ f ∈ fs', FactorWF F' C' f) (vars vars' : List Var) (val : Var → Value ℝ) (a a' : Assign ℝ)
    (h : RenamedValues C C' ρ fs fs' vars vars' val a a') :
    ∃ g g', Graph.make C fs = .ok g ∧ Graph.make C' fs' = .ok g' ∧
      ((∃ c, SparseCovariance.make lib F C g a = .ok c) ↔ ∃ c', SparseCovariance.make lib F' C' g' a' = .ok c') ∧
      ∀ c c', SparseCovariance.make lib F C g a = .ok c → SparseCovariance.make lib F' C' g' a' = .ok c' →
        ∀ us : List Var, (∀ v ∈ us, v ∈ vars) → ∀ cache cache', Reachable c cache → Reachable c' cache' → ∀ depth : Nat,
          2 * g.localLayout.dim ≤ depth + 1 → 2 * g'.localLayout.dim ≤ depth + 1 →
          ∃ M, (c.computeMarginal C depth us cache).1 = .ok M ∧ (c'.computeMarginal C' depth (us.map ρ) cache').1 = .ok M := by
  have hs := variablesOf_spec fs
  have hs' := variablesOf_spec fs'
  have hne' : fs' ≠ [] := by
    obtain ⟨f, hf⟩ := List.exists_mem_of_ne_nil _ hne
    exact List.ne_nil_of_mem (hp.mem hf)
  have hmem : ∀ v ∈ Graph.variablesOf fs, ρ v ∈ Graph.variablesOf fs' := fun v hv => hp.variablesOf.mem_iff.1 (List.mem_map_of_mem hv)
  have hmem' : ∀ u ∈ Graph.variablesOf fs', ∃ v ∈ Graph.variablesOf fs, ρ v = u := fun u hu => List.mem_map.1 (hp.variablesOf.mem_iff.2 hu)
  obtain ⟨κ, hκ⟩ : ∃ κ : Var → Var, ∀ u ∈ Graph.variablesOf fs', κ u ∈ Graph.variablesOf fs ∧ ρ (κ u) = u := by
    have : ∀ u, ∃ v, u ∈ Graph.variablesOf fs' → v ∈ Graph.variablesOf fs ∧ ρ v = u := fun u => by
      by_cases hu : u ∈ Graph.variablesOf fs'
      · obtain ⟨v, hv⟩ := hmem' u hu
        exact ⟨v, fun _ => hv⟩
      · exact ⟨u, fun h => absurd h hu⟩
    choose κ hκ using this
    exact ⟨κ, hκ⟩
  have hκρ : ∀ v ∈ Graph.variablesOf fs, κ (ρ v) = v := fun v hv => hp.injective (hκ _ (hmem v hv)).1 hv (hκ _ (hmem v hv)).2
  obtain ⟨w, R, hR'⟩ := factor_parts hfs' fun f hf => h.right.valuesFor hC' hf
  have hR : ∀ f ∈ fs, whitenedAt F (fun v => val (ρ v)) f = .ok (w (φ f)) ∧ (w (φ f)).length = rdim f ∧
      ((F f.cls).jacobians f.self (f.vars.map fun v => val (ρ v))).mapM (fun J => f.noise.whitenJacobian J (w (φ f))) = .ok (R (φ f)) := by
    intro f hf
    obtain ⟨k1, k2, k3⟩ := hR' (φ f) (hp.mem hf)
    have hv := h.left.valuesFor hC hf
    refine ⟨?_, by rw [k2, hp.rdim hf], ?_⟩
    · rw [← k1]
      unfold whitenedAt
      rw [hp.noise f hf, hp.vars f hf, List.map_map, ← hp.residual f hf _ hv]
      rfl
    · rw [← k3, hp.noise f hf, hp.vars f hf, List.map_map, ← hp.jacobians f hf _ hv]
      rfl
  have heq : ∀ e : Var → List ℝ, (∀ u ∈ Graph.variablesOf fs', (e u).length = (C' u.ty).localDim) →
      seenBy C fs (fun f => R (φ f)) (fun v => e (ρ v)) = seenBy C' fs' R e := by
    intro e he
    obtain ⟨r1, r2⟩ := hp.reps (e := e) fun u hu => he u (mem_grouped.1 (hp.grouped.mem_iff.1 hu))
    rw [List.flatMap_map] at r1
    unfold seenBy
    rw [← (hp.factors.map _).sum_eq, List.map_map]
    refine congrArg List.sum (List.map_congr_left fun f hf => ?_)
    simp only [Function.comp]
    rw [facProd_renamed r1 r2 (R := fun f => R (φ f)) (R' := R) (f := f) (f' := φ f) rfl (hp.rdim hf) (hp.vars f hf) (hp.classes f hf) (fun v hv => (hs.2 v).2 ⟨f, hf, hv⟩)
      fun v hv => (hs'.2 v).2 ⟨φ f, hp.mem hf, hv⟩]
  have hle' : ∀ e : Var → List ℝ, (∀ v ∈ Graph.variablesOf fs, (e v).length = (C v.ty).localDim) →
      seenBy C' fs' R (fun u => e (κ u)) ≤ seenBy C fs (fun f => R (φ f)) e := by
    intro e he
    rw [← heq _ fun u hu => by rw [he _ (hκ u hu).1, ← hp.class (hκ u hu).1, (hκ u hu).2]]
    unfold seenBy
    rw [List.flatMap_congr fun v hv => by rw [hκρ v (mem_grouped.1 hv)]]
  obtain ⟨g, g', hg, hg', k1⟩ := compare_marginals_renamed lib hlib hC hC' hne hne' hfs hfs' hmem (fun v hv => by rw [hp.class hv]) h.left h.right
    hR hR' fun e he => (heq e he).le
  have hback : ∀ u ∈ Graph.variablesOf fs', (C (κ u).ty).localDim = (C' u.ty).localDim := fun u hu => by
    rw [← hp.class (hκ u hu).1, (hκ u hu).2]
  obtain ⟨g2', g2, hg2', hg2, k2⟩ := compare_marginals_renamed lib hlib hC' hC hne' hne hfs' hfs (fun u hu => (hκ u hu).1) hback h.right h.left
    hR' hR hle'
  obtain ⟨g3, g3', hg3, hg3', k3⟩ := compare_exists_renamed lib hC hC' hne hne' hfs hfs' hmem (fun v hv => by rw [hp.class hv]) hmem' h.left
    h.right hR hR' fun e he => (heq e he).le
  obtain ⟨g4', g4, hg4', hg4, k4⟩ := compare_exists_renamed lib hC' hC hne' hne hfs' hfs (fun u hu => (hκ u hu).1) hback
    (fun v hv => ⟨ρ v, hmem v hv, hκρ v hv⟩) h.right h.left hR' hR hle'
  rw [hg] at hg2 hg3 hg4; rw [hg'] at hg2' hg3' hg4'
  obtain rfl := Except.ok.inj hg2; obtain rfl := Except.ok.inj hg3; obtain rfl := Except.ok.inj hg4
  obtain rfl := Except.ok.inj hg2'; obtain rfl := Except.ok.inj hg3'; obtain rfl := Except.ok.inj hg4'
  refine ⟨g, g', hg, hg', ⟨fun ⟨c, hc⟩ => k3 c hc, fun ⟨c, hc⟩ => k4 c hc⟩, fun c c' hc hc' us hus cache cache' hca hca' depth hd hd' => ?_⟩
  obtain ⟨M, M', m1, m2, m3, m4⟩ := k1 c c' hc hc' us hus cache cache' hca hca' depth hd hd'
  have husv : ∀ v ∈ us, v ∈ Graph.variablesOf fs := fun v hv => (hs.2 v).2 ((h.left.sameVars v).1 (hus v hv))
  have hus' : ∀ u ∈ us.map ρ, u ∈ vars' := fun u hu => by
    obtain ⟨v, hv, rfl⟩ := List.mem_map.1 hu
    exact (h.right.sameVars _).2 ((hs'.2 _).1 (hmem v (husv v hv)))
  obtain ⟨M2', M2, n1, n2, -, n4⟩ := k2 c' c hc' hc (us.map ρ) hus' cache' cache hca' hca depth hd' hd
  have hid : (us.map ρ).map κ = us := by
    rw [List.map_map]
    exact (List.map_congr_left fun v hv => hκρ v (husv v hv)).trans (List.map_id us)
  rw [hid] at n2
  obtain rfl := Except.ok.inj (m1.symm.trans n2)
  obtain rfl := Except.ok.inj (m2.symm.trans n1)
  obtain rfl := m3.eq fun x => le_antisymm (m4 x) (n4 x)
  exact ⟨_, m1, m2⟩

/-- **C122, other variables.** The setting of `C122_renaming` is met by the same factors over other variables: fresh objects, of the
same classes or of other classes with the same values and retractions (so classes may be split, or merged), unless the methods of
the factors, which can see the classes of their variables, return something else for the other classes. -/
theorem C122_other_variables (ρ : Var → Var) (fs : List Factor) (hfs : ∀ f ∈ fs, FactorWF F C f)
    (hρ : ∀ f ∈ fs, ∀ v ∈ f.vars, ∀ h ∈ fs, ∀ w ∈ h.vars, ρ v = ρ w → v = w) (hc : ∀ f ∈ fs, ∀ v ∈ f.vars, C' (ρ v).ty = C v.ty)
    (hm : ∀ f ∈ fs, ∀ vals, ValuesFor C f.vars vals →
      (F f.cls).residual ⟨f.vars.map fun v => (ρ v).ty, f.noise, f.params⟩ vals = (F f.cls).residual f.self vals ∧
      (F f.cls).jacobians ⟨f.vars.map fun v => (ρ v).ty, f.noise, f.params⟩ vals = (F f.cls).jacobians f.self vals)
    (fs' : List Factor) (hfs' : (fs.map fun f => { f with vars := f.vars.map ρ }).Perm fs') :
    Renamed F F C C' ρ (fun f => { f with vars := f.vars.map ρ }) fs fs' ∧ ∀ f ∈ fs', FactorWF F C' f := by
  have hself : ∀ f : Factor, ({ f with vars := f.vars.map ρ } : Factor).self = ⟨f.vars.map fun v => (ρ v).ty, f.noise, f.params⟩ := fun f => by
    unfold Factor.self
    rw [List.map_map]
    rfl
  refine ⟨⟨hfs', hρ, hc, fun _ _ => rfl, fun _ _ => rfl, fun f hf vals hv => by rw [hself]; exact (hm f hf vals hv).1,
    fun f hf vals hv => by rw [hself]; exact (hm f hf vals hv).2⟩, fun f' hf' => ?_⟩
  obtain ⟨f, hf, rfl⟩ := List.mem_map.1 (hfs'.mem_iff.2 hf')
  have hw := hfs f hf
  have hv : ∀ vals, ValuesFor C' (f.vars.map ρ) vals → ValuesFor C f.vars vals := by
    intro vals h
    unfold ValuesFor at h ⊢
    rw [List.forall₂_map_left_iff] at h
    refine (List.forall₂_iff_get.2 ⟨h.length_eq, fun i h1 h2 => ?_⟩)
    have := (List.forall₂_iff_get.1 h).2 i h1 h2
    rwa [hc f hf _ (List.get_mem ..)] at this
  refine ⟨hw.pos, by simpa using hw.vars, hw.noise, hw.params, ?_, fun vals h => ?_, fun vals h => ?_⟩
  · have : ((f.vars.map ρ).map fun v => (C' v.ty).default.treedef) = f.vars.map fun v => (C v.ty).default.treedef := by
      rw [List.map_map]
      exact List.map_congr_left fun v h => by simp only [Function.comp, hc f hf v h]
    exact this ▸ hw.hint
  · rw [hself]
    show ((F f.cls).residual _ vals).length = rdim f
    rw [(hm f hf vals (hv vals h)).1]
    exact hw.residual vals (hv vals h)
  · rw [hself]
    show List.Forall₂ _ _ ((F f.cls).jacobians _ vals)
    rw [(hm f hf vals (hv vals h)).2]
    have := hw.jacobians vals (hv vals h)
    refine List.forall₂_map_left_iff.2 (List.forall₂_iff_get.2 ⟨this.length_eq, fun i h1 h2 => ?_⟩)
    have := (List.forall₂_iff_get.1 this).2 i h1 h2
    rw [hc f hf _ (List.get_mem ..)]
    exact this

/-- **C122, fresh variables.** In particular, for every user-written factor: nothing depends on which objects of their classes the
variables are (the order in which they were created, their identities). -/
theorem C122_fresh_variables (ρ : Var → Var) (fs : List Factor) (hfs : ∀ f ∈ fs, FactorWF F C f)
    (hρ : ∀ f ∈ fs, ∀ v ∈ f.vars, ∀ h ∈ fs, ∀ w ∈ h.vars, ρ v = ρ w → v = w) (hty : ∀ f ∈ fs, ∀ v ∈ f.vars, (ρ v).ty = v.ty)
    (fs' : List Factor) (hfs' : (fs.map fun f => { f with vars := f.vars.map ρ }).Perm fs') :
    Renamed F F C C ρ (fun f => { f with vars := f.vars.map ρ }) fs fs' ∧ ∀ f ∈ fs', FactorWF F C f :=
  C122_other_variables F C C ρ fs hfs hρ (fun f hf v hv => by rw [hty f hf v hv]) (fun f hf vals _ => by
    have : (⟨f.vars.map fun v => (ρ v).ty, f.noise, f.params⟩ : FactorSelf) = f.self := by
      unfold Factor.self
      rw [List.map_congr_left fun v hv => hty f hf v hv]
    rw [this]
    exact ⟨rfl, rfl⟩) fs' hfs'

end

namespace PoseEx

/-- Fresh variables: the second planar pose gets a class of its own and comes first, the others are new objects. -/
def fresh (v : Var) : Var := if v = y then ⟨7, 0⟩ else ⟨v.ty, v.uid + 10⟩

/-- The pose graph of `PoseEx` over fresh variables, one of them of another class, and with another order of factors, solved from poses that
do not satisfy the measurements: both runs return, with the same lines and the same values. -/
example (stale : Pattern → ScipyCoo ℝ → ℝ → List ℝ → Py (List ℝ)) (addr : Nat) : ∃ (fs' : List Factor) (g g' : Graph) (a a' o o' : Assign ℝ) (val : Var → Value ℝ) (log : _),
    let s' := (GaussNewton.defaults fun A b l _ => (cholmodSolve stale .empty addr A b l).1).lift
    fs'.map (·.vars) = [[fresh r, fresh s], [fresh x], [fresh x, fresh y]] ∧
    Graph.make C fs = .ok g ∧ Graph.make C fs' = .ok g' ∧ g.layout ≠ g'.layout ∧
    Holds C fs [x, y, r, s] (poseValue K (pose false)) a ∧
    s'.solve (fun t => (C t).lift) (g.ops F C).lift 100 (a.map fin) = .ok (some (o.map fin, log)) ∧
    s'.solve (fun t => (C t).lift) (g'.ops F C).lift 100 (a'.map fin) = .ok (some (o'.map fin, log)) ∧
    RenamedValues C C fresh fs fs' [x, y, r, s] [fresh s, fresh y, fresh r, fresh x] val o o' := by
  have hC : GoodClasses C := lie_goodClasses fun _ => rfl
  have hM : ∀ f ∈ fs, ∃ P, Measures F K f P := by
    intro f hf
    simp only [fs, List.mem_cons, List.not_mem_nil, or_false] at hf
    obtain ⟨m1, m2, m3⟩ := measures
    rcases hf with rfl | rfl | rfl
    · exact ⟨_, m1⟩
    · exact ⟨_, m2⟩
    · exact ⟨_, m3⟩
  have hwf : ∀ f ∈ fs, FactorWF F C f := fun f hf =>
    (C54_wellformed F C K f _ (hM f hf).choose_spec fun v hv => ⟨rfl, noise f hf v hv⟩).1
  obtain ⟨a, ha⟩ := holds false
  have hin : ∀ f ∈ fs, ∀ v ∈ f.vars, v ∈ [x, y, r, s] := fun f hf v hv => (ha.sameVars v).2 ⟨f, hf, hv⟩
  have inj : ∀ v ∈ [x, y, r, s], ∀ w ∈ [x, y, r, s], fresh v = fresh w → v = w := by decide
  have hty : ∀ v ∈ [x, y, r, s], C (fresh v).ty = C v.ty := by
    intro v hv
    simp only [List.mem_cons, List.not_mem_nil, or_false] at hv
    rcases hv with rfl | rfl | rfl | rfl <;> rfl
  let over := fun f : Factor => { f with vars := f.vars.map fresh }
  obtain ⟨hR, hwf'⟩ := C122_other_variables F C C fresh fs hwf (fun f hf v hv k hk w hw => inj v (hin f hf v hv) w (hin k hk w hw))
    (fun f hf v hv => hty v (hin f hf v hv)) (fun f hf vals _ => by
      simp only [fs, List.mem_cons, List.not_mem_nil, or_false] at hf
      rcases hf with rfl | rfl | rfl <;> exact ⟨rfl, rfl⟩) [over turn, over prior, over step]
    (List.perm_append_comm (l₁ := [over prior, over step]) (l₂ := [over turn]))
  -- values of the fresh variables
  let back := fun u : Var => if u = ⟨7, 0⟩ then y else ⟨u.ty, u.uid - 10⟩
  have hback : ∀ v ∈ [x, y, r, s], back (fresh v) = v := by decide
  let val' := fun u => poseValue K (pose false) (back u)
  have hval' : ∀ u ∈ [fresh s, fresh y, fresh r, fresh x], IsValueOf (C u.ty) (val' u) := by
    intro u hu
    simp only [List.mem_cons, List.not_mem_nil, or_false] at hu
    have key : ∀ v ∈ [x, y, r, s], IsValueOf (C (fresh v).ty) (val' (fresh v)) := fun v hv => by
      simp only [val', hback v hv, hty v hv]
      exact (isValueOf_lie _).2 ⟨_, rfl, (lieLaws _).len _ (pose_valid false v hv)⟩
    rcases hu with rfl | rfl | rfl | rfl <;> exact key _ (by decide)
  obtain ⟨⟨a', -, h2, h3, h4, -⟩, -⟩ := C07_partial_and_defaults C (fun t => lie_wellShaped _) [fresh s, fresh y, fresh r, fresh x]
    (by decide) (by decide) ⟨[fresh s, fresh y, fresh r, fresh x].map fun v => (v, val' v)⟩ (fun v hv z hz => by
      have : (⟨[fresh s, fresh y, fresh r, fresh x].map fun v => (v, val' v)⟩ : PyDict Var (Value ℝ)).get? v = some (val' v) := by
        simp only [List.mem_cons, List.not_mem_nil, or_false] at hv
        rcases hv with rfl | rfl | rfl | rfl <;> rfl
      rw [this] at hz
      obtain rfl := Option.some.inj hz
      exact hval' v hv)
  have ha' : Holds C [over turn, over prior, over step] [fresh s, fresh y, fresh r, fresh x] val' a' :=
    ⟨h2, h3, fun v => by simp [over, turn, prior, step, PriorFactor.make]; tauto, fun v hv => h4 v hv _ (by
      simp only [List.mem_cons, List.not_mem_nil, or_false] at hv
      rcases hv with rfl | rfl | rfl | rfl <;> rfl)⟩
  have hsame : RenamedValues C C fresh fs [over turn, over prior, over step] [x, y, r, s] [fresh s, fresh y, fresh r, fresh x] val' a a' :=
    ⟨⟨ha.assignment, ha.isGlobal, ha.sameVars, fun v hv => by rw [ha.values v hv]; simp only [val', hback v hv]⟩, ha'⟩
  obtain ⟨g, g', hg, hg', h⟩ := C122_renaming F F C C hC hC fresh _ fs _ hR (by simp [fs]) hwf hwf' (fun f hf v hv => lie_paramDim_pos _)
  have h1 := (h _ _ _ _ (lifts_lift _ _) (lifts_lift _ _) _ _ _ a a' hsame).2.1 _ _
    (liftsGN_lift (GaussNewton.defaults fun A b l _ => (cholmodSolve stale .empty addr A b l).1)) (.inl (C73_cholmod stale addr))
  obtain ⟨g1, hg1, h2⟩ := C72_solve_returns F C hC fs (by simp [fs]) hwf (fun f hf v hv => lie_paramDim_pos _)
  obtain ⟨g2, hg2, h3⟩ := C72_cholmod F C hC fs (by simp [fs]) hwf stale addr
  rw [hg] at hg1 hg2
  cases Except.ok.inj hg1
  cases Except.ok.inj hg2
  obtain ⟨o, log, -, -, h4⟩ := (h2 _ _ (lifts_lift _ _) _ a ha.assignment ha.isGlobal ha.sameVars).1 _ _
    (liftsGN_lift (GaussNewton.defaults fun A b l _ => (cholmodSolve stale .empty addr A b l).1)) h3
  have h4 := h4 100 (by show max (1 : Int) 100 ≤ 100; norm_num)
  obtain ⟨o1, o', e1, e2, -, -, val, e3⟩ := h1 100 _ _ h4
  obtain ⟨g3, hg3, hG⟩ := graph_ok (F := F) hwf (by simp [fs])
  obtain ⟨g4, hg4, hG'⟩ := graph_ok (F := F) hwf' (by simp)
  rw [hg] at hg3; rw [hg'] at hg4
  cases Except.ok.inj hg3
  cases Except.ok.inj hg4
  refine ⟨_, g, g', a, a', o1, o', val, log, rfl, hg, hg', fun he => ?_, ha, by rw [← e1]; exact h4, e2, e3⟩
  rw [hG.layout, hG'.layout] at he
  have h6 := congrArg (fun l : Layout => l.getVariables.contains x) he
  exact absurd h6 (by decide)

open AnchoredEx in
/-- The covariances of two poses exist, and they are the same over fresh variables. -/
example (lib : CholmodChoice) (hlib : ∀ p n, lib.order p n = 1) : ∃ (fs' : List Factor) (g g' : Graph) (a a' : Assign ℝ) (c c' : SparseCovariance ℝ),
    fs'.map (·.vars) = [[fresh x], [fresh x, fresh y]] ∧ Graph.make C planar = .ok g ∧ Graph.make C fs' = .ok g' ∧
    Holds C planar [x, y] (poseValue K (pose false)) a ∧
    SparseCovariance.make lib F C g a = .ok c ∧ SparseCovariance.make lib F C g' a' = .ok c' ∧ ∃ M,
      (c.computeMarginal C 100 [y, x] .empty).1 = .ok M ∧ (c'.computeMarginal C 100 [fresh y, fresh x] .empty).1 = .ok M := by
  obtain ⟨a, ha⟩ := AnchoredEx.holds
  have hC : GoodClasses C := lie_goodClasses fun _ => rfl
  have hwf : ∀ f ∈ planar, FactorWF F C f := fun f hf =>
    (C54_wellformed F C K f _ (AnchoredEx.measures f (planar_sub hf)).choose_spec fun v hv => ⟨rfl, noise f (planar_sub hf) v hv⟩).1
  have hin : ∀ f ∈ planar, ∀ v ∈ f.vars, v ∈ [x, y] := fun f hf v hv => (ha.sameVars v).2 ⟨f, hf, hv⟩
  have inj : ∀ v ∈ [x, y], ∀ w ∈ [x, y], fresh v = fresh w → v = w := by decide
  have hty : ∀ v ∈ [x, y], C (fresh v).ty = C v.ty := by
    intro v hv
    simp only [List.mem_cons, List.not_mem_nil, or_false] at hv
    rcases hv with rfl | rfl <;> rfl
  let over := fun f : Factor => { f with vars := f.vars.map fresh }
  obtain ⟨hR, hwf'⟩ := C122_other_variables F C C fresh planar hwf (fun f hf v hv k hk w hw => inj v (hin f hf v hv) w (hin k hk w hw))
    (fun f hf v hv => hty v (hin f hf v hv)) (fun f hf vals _ => by
      simp only [planar, List.mem_cons, List.not_mem_nil, or_false] at hf
      rcases hf with rfl | rfl <;> exact ⟨rfl, rfl⟩) [over prior, over step] (List.Perm.refl _)
  let back := fun u : Var => if u = ⟨7, 0⟩ then y else ⟨u.ty, u.uid - 10⟩
  have hback : ∀ v ∈ [x, y], back (fresh v) = v := by decide
  let val' := fun u => poseValue K (pose false) (back u)
  have hget : ∀ v ∈ [fresh y, fresh x], (⟨[fresh y, fresh x].map fun v => (v, val' v)⟩ : PyDict Var (Value ℝ)).get? v = some (val' v) := by
    intro v hv
    simp only [List.mem_cons, List.not_mem_nil, or_false] at hv
    rcases hv with rfl | rfl <;> rfl
  have key : ∀ v ∈ [x, y], IsValueOf (C (fresh v).ty) (val' (fresh v)) := fun v hv => by
    simp only [val', hback v hv, hty v hv]
    exact (isValueOf_lie _).2 ⟨_, rfl, (lieLaws _).len _ (pose_valid false v (by simp at hv ⊢; tauto))⟩
  obtain ⟨⟨a', -, h2, h3, h4, -⟩, -⟩ := C07_partial_and_defaults C (fun t => lie_wellShaped _) [fresh y, fresh x]
    (by decide) (by decide) ⟨[fresh y, fresh x].map fun v => (v, val' v)⟩ (fun v hv z hz => by
      rw [hget v hv] at hz
      obtain rfl := Option.some.inj hz
      simp only [List.mem_cons, List.not_mem_nil, or_false] at hv
      rcases hv with rfl | rfl <;> exact key _ (by simp))
  have ha' : Holds C [over prior, over step] [fresh y, fresh x] val' a' :=
    ⟨h2, h3, fun v => by simp [over, prior, step, PriorFactor.make]; tauto, fun v hv => h4 v hv _ (hget v hv)⟩
  obtain ⟨g, g', hg, hg', hS, hM⟩ := C122_covariances F F C C lib hlib hC hC fresh _ planar _ hR (by simp [planar]) hwf hwf' [x, y] [fresh y, fresh x] val' a a'
    ⟨⟨ha.assignment, ha.isGlobal, ha.sameVars, fun v hv => by rw [ha.values v hv]; simp only [val', hback v hv]⟩, ha'⟩
  obtain ⟨g1, hg1, hcov, -⟩ := C104_anchored lib F C K (fun _ => rfl) planar (by simp [planar])
    (fun f hf => AnchoredEx.measures f (planar_sub hf)) (fun f hf => AnchoredEx.noise f (planar_sub hf)) _
    (pose false) (fun v hv => pose_valid false v (by simp at hv ⊢; tauto)) a ha
  obtain rfl := Except.ok.inj (hg.symm.trans hg1)
  obtain ⟨c, hc⟩ := hcov fun v hv => by
    have hx : Anchored planar x := .prior (f := prior) (by simp [planar]) rfl
    simp only [List.mem_cons, List.not_mem_nil, or_false] at hv
    rcases hv with rfl | rfl
    · exact hx
    · exact .forward (f := step) (by simp [planar]) rfl hx
  obtain ⟨c', hc'⟩ := hS.1 ⟨c, hc⟩
  obtain ⟨_, hg3, hG⟩ := graph_ok (F := F) hwf (by simp [planar])
  obtain ⟨_, hg4, hG'⟩ := graph_ok (F := F) hwf' (by simp)
  obtain rfl := Except.ok.inj (hg.symm.trans hg3)
  obtain rfl := Except.ok.inj (hg'.symm.trans hg4)
  obtain ⟨M, k1, k2⟩ := hM c c' hc hc' [y, x] (by simp) .empty .empty .make .make 100 (by rw [hG.localLayout]; decide) (by rw [hG'.localLayout]; decide)
  exact ⟨_, g, g', a, a', c, c', rfl, hg, hg', ha, hc, hc', M, k1, k2⟩

end PoseEx

end Jaxfg.Props
