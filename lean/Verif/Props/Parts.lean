/- Property C81: independent parts of a problem. -/
import Verif.Lemmas.Parts
import Verif.Props.FixedOrder
import Verif.Props.Budget

namespace Jaxfg.Props
open Matrix hiding vec
open Spec
open Ext (fin)

/-- CHOLMOD, as called by the Gauss-Newton solvers, solves the normal equations with a damping of 1/100000 (for a factor without an
analysis of another pattern, see C37). -/
theorem C81_cholmod (stale : Pattern → ScipyCoo ℝ → ℝ → List ℝ → Py (List ℝ)) (addr : Nat) :
    ExactlyDamped (fun A b l _ => (cholmodSolve stale .empty addr A b l).1) (1 / 100000) := by
  intro A b i hA hb
  obtain ⟨-, x, h1, h2, h3, -⟩ := C35_cholmod stale .empty addr A hA b hb 0 le_rfl fun p hp => by cases hp
  rw [zero_add] at h3
  exact ⟨x, h1, h2, h3⟩

section
variable (F : Nat → FactorClass) (C : Ty → VarClass ℝ)

/-- **C81**, cost. The cost of a graph is the cost of a part of its factors plus the cost of the others, whether or not they share
variables. -/
theorem C81_cost (hC : GoodClasses C) (fs : List Factor) (p : Factor → Bool) (hfs : ∀ f ∈ fs, FactorWF F C f)
    (hne : ∃ f ∈ fs, p f = true) (hne' : ∃ f ∈ fs, p f = false) :
    ∃ g g₁ g₂, Graph.make C fs = .ok g ∧ Graph.make C (fs.filter p) = .ok g₁ ∧ Graph.make C (fs.filter fun f => !p f) = .ok g₂ ∧
      ∀ val vars vars₁ vars₂ a a₁ a₂, Holds C fs vars val a → Holds C (fs.filter p) vars₁ val a₁ →
        Holds C (fs.filter fun f => !p f) vars₂ val a₂ → ∃ c₁ r₁ c₂ r₂ r, g₁.computeCost F C a₁ = .ok (c₁, r₁) ∧
          g₂.computeCost F C a₂ = .ok (c₂, r₂) ∧ g.computeCost F C a = .ok (c₁ + c₂, r) := by
  have n1 : fs.filter p ≠ [] := by
    obtain ⟨f, hf, hp⟩ := hne
    exact List.ne_nil_of_mem (List.mem_filter.2 ⟨hf, hp⟩)
  have n2 : fs.filter (fun f => !p f) ≠ [] := by
    obtain ⟨f, hf, hp⟩ := hne'
    exact List.ne_nil_of_mem (List.mem_filter.2 ⟨hf, by simp [hp]⟩)
  have n0 : fs ≠ [] := by
    obtain ⟨f, hf, -⟩ := hne
    exact List.ne_nil_of_mem hf
  have w1 : ∀ f ∈ fs.filter p, FactorWF F C f := fun f hf => hfs f (List.mem_filter.1 hf).1
  have w2 : ∀ f ∈ fs.filter (fun f => !p f), FactorWF F C f := fun f hf => hfs f (List.mem_filter.1 hf).1
  obtain ⟨g, hg, hG⟩ := graph_ok (F := F) hfs n0
  obtain ⟨g₁, hg₁, hG₁⟩ := graph_ok (F := F) w1 n1
  obtain ⟨g₂, hg₂, hG₂⟩ := graph_ok (F := F) w2 n2
  refine ⟨g, g₁, g₂, hg, hg₁, hg₂, fun val vars vars₁ vars₂ a a₁ a₂ h h₁ h₂ => ?_⟩
  obtain ⟨w, hw⟩ := h.whitened hC hfs
  refine ⟨_, _, _, _, (evalOrder fs).flatMap w, cost_ok _ _ hC n1 w1 hG₁ h₁ fun f hf => (hw f (List.mem_filter.1 hf).1).1,
    cost_ok _ _ hC n2 w2 hG₂ h₂ fun f hf => (hw f (List.mem_filter.1 hf).1).1, ?_⟩
  rw [cost_ok _ _ hC n0 hfs hG h fun f hf => (hw f hf).1]
  have : ∀ l : List Factor, (l.map fun f => sqNorm (w f)).sum =
      ((l.filter p).map fun f => sqNorm (w f)).sum + ((l.filter fun f => !p f).map fun f => sqNorm (w f)).sum := by
    intro l
    induction l with
    | nil => simp
    | cons f l ih =>
      cases hp : p f <;> simp [hp, ih] <;> ring
  rw [this fs]

/-- **C81.** If some factors of a graph share no variable with the others, then a fixed number of Gauss-Newton iterations on the
whole graph does to their variables what the same number of iterations does on the graph of these factors alone: both `solve` calls
return, and every variable of the part has the same value in both results. The two solvers may differ in how they print and loop,
and in the linear solver, as long as both solve the normal equations with the same damping (`C81_cholmod`). -/
theorem C81_independent_parts (hC : GoodClasses C) (fs : List Factor) (p : Factor → Bool) (hfs : ∀ f ∈ fs, FactorWF F C f)
    (hne : ∃ f ∈ fs, p f = true) (hsep : Separate fs p) :
    ∃ g g', Graph.make C fs = .ok g ∧ Graph.make C (fs.filter p) = .ok g' ∧
      ∀ CE gE gE', Lifts CE gE C (g.ops F C) → Lifts CE gE' C (g'.ops F C) →
      ∀ (β : ℝ) (sE sE' : FixedIteration Ext) (L L' : LinSolver ℝ) (n fuel fuel' : Nat), 0 < β → ExactlyDamped L β → ExactlyDamped L' β →
        LiftsSolver sE.linear L → LiftsSolver sE'.linear L' → sE.iterations = n → sE'.iterations = n → 1 ≤ n → n ≤ fuel → n ≤ fuel' →
      ∀ vars vars' val a a', Holds C fs vars val a → Holds C (fs.filter p) vars' val a' → a.layout = g.layout → a'.layout = g'.layout →
        ∃ o o' val', outcome (sE.solve CE gE fuel (a.map fin)) = .ok (some (o.map fin)) ∧
          outcome (sE'.solve CE gE' fuel' (a'.map fin)) = .ok (some (o'.map fin)) ∧
          Holds C fs vars val' o ∧ Holds C (fs.filter p) vars' val' o' := by
  have n1 : fs.filter p ≠ [] := by
    obtain ⟨f, hf, hp⟩ := hne
    exact List.ne_nil_of_mem (List.mem_filter.2 ⟨hf, hp⟩)
  have n0 : fs ≠ [] := by
    obtain ⟨f, hf, -⟩ := hne
    exact List.ne_nil_of_mem hf
  have w1 : ∀ f ∈ fs.filter p, FactorWF F C f := fun f hf => hfs f (List.mem_filter.1 hf).1
  obtain ⟨g, hg, hG⟩ := graph_ok (F := F) hfs n0
  obtain ⟨g', hg', hG'⟩ := graph_ok (F := F) w1 n1
  refine ⟨g, g', hg, hg', fun CE gE gE' hl hl' β sE sE' L L' n fuel fuel' hβ hL hL' hE hE' hi hi' hn hf hf' vars vars' val a a' ha ha' e e' => ?_⟩
  have hs := variablesOf_spec fs
  have hs' := variablesOf_spec (fs.filter p)
  have own : ∀ {hs : List Factor} {us : List Var} {x : Assign ℝ} {G : Graph}, GraphOf F C hs G → Holds C hs us val x → x.layout = G.layout →
      Stores C (Graph.variablesOf hs) val x := by
    intro hs us x G hG hx hxl
    have hv := variablesOf_spec hs
    refine stores_of_holds hC (fs := hs) ⟨⟨hv.1, ?_, hx.assignment.2.2⟩, hx.isGlobal, hv.2, fun v hv' => hx.values v ?_⟩
    · rw [hx.isGlobal, hxl, hG.layout]
    · rw [hx.sameVars, ← hv.2]; exact hv'
  have s1 := own hG ha e
  have s2 := own hG' ha' e'
  obtain ⟨w, hw⟩ := ha.whitened hC hfs
  have c1 := cost_ok _ _ hC n0 hfs hG ha fun f hf => (hw f hf).1
  have c2 := cost_ok _ _ hC n1 w1 hG' ha' fun f hf => (hw f (List.mem_filter.1 hf).1).1
  obtain ⟨o, o', l, l', h1, h2, val', t1, t2⟩ := part_loop hC hfs n1 hsep hG hG' hβ hL hL' hl hl' hE hE' n 0 0 ⟨val, s1, s2⟩ c1 c2
  have back : ∀ {hs : List Factor} {us : List Var} {x y : Assign ℝ} {G : Graph}, GraphOf F C hs G → Holds C hs us val x → x.layout = G.layout →
      Stores C (Graph.variablesOf hs) val' y → Holds C hs us val' y := by
    intro hs us x y G hG hx hxl hy
    have hv := variablesOf_spec hs
    have m := hy.holds hv.2
    refine ⟨⟨hx.assignment.1, ?_, m.assignment.2.2⟩, m.isGlobal, hx.sameVars, fun v hv' => m.values v ?_⟩
    · have := hx.assignment.2.1
      rw [hx.isGlobal, hxl, hG.layout] at this
      rw [m.isGlobal, hy.1.layout, this]
    · rw [hv.2, ← hx.sameVars]; exact hv'
  refine ⟨o, o', val', ?_, ?_, back hG ha e t1, back hG' ha' e' t2⟩
  · rw [fixedSolve_core sE hi (.inr ⟨hn, hf⟩), hl.cost]
    have c1 : (g.ops F C).computeCost a = _ := c1
    rw [c1]
    simp only [Except.map, py_bind_ok] at h1 ⊢
    rw [h1]
  · rw [fixedSolve_core sE' hi' (.inr ⟨hn, hf'⟩), hl'.cost]
    have c2 : (g'.ops F C).computeCost a' = _ := c2
    rw [c2]
    simp only [Except.map, py_bind_ok] at h2 ⊢
    rw [h2]

/-- **C81**, Gauss-Newton. The solver that decides itself when to stop looks at the whole graph to decide. The number of iterations that
it performs on the whole graph, performed on the graph of the part, gives the same values of the variables of the part. -/
theorem C81_gauss_newton (hC : GoodClasses C) (fs : List Factor) (p : Factor → Bool) (hfs : ∀ f ∈ fs, FactorWF F C f)
    (hpos : ∀ f ∈ fs, ∀ v ∈ f.vars, 0 < (C v.ty).paramDim) (hne : ∃ f ∈ fs, p f = true) (hsep : Separate fs p) :
    ∃ g g', Graph.make C fs = .ok g ∧ Graph.make C (fs.filter p) = .ok g' ∧
      ∀ CE gE gE', Lifts CE gE C (g.ops F C) → Lifts CE gE' C (g'.ops F C) →
      ∀ (β : ℝ) (sE : GaussNewton Ext) (s : GaussNewton ℝ) (fuel : Nat) (out : Assign Ext) (log : List (Msg Ext)), 0 < β → LiftsGN sE s →
        ExactlyDamped s.linear β → ∀ vars val a, Holds C fs vars val a → sE.solve CE gE fuel (a.map fin) = .ok (some (out, log)) →
      ∃ k, Performs CE gE id (initState gE) (sE.step CE gE) (a.map fin) k ∧ 1 ≤ k ∧
        ∀ (sE' : FixedIteration Ext) (L' : LinSolver ℝ) (fuel' : Nat), ExactlyDamped L' β → LiftsSolver sE'.linear L' → sE'.iterations = k →
          k ≤ fuel' → ∀ vars' a', Holds C (fs.filter p) vars' val a' → a'.layout = g'.layout →
          ∃ o o' val', out = o.map fin ∧ outcome (sE'.solve CE gE' fuel' (a'.map fin)) = .ok (some (o'.map fin)) ∧
            Holds C fs vars val' o ∧ Holds C (fs.filter p) vars' val' o' := by
  obtain ⟨g, g', hg, hg', main⟩ := C81_independent_parts F C hC fs p hfs hne hsep
  refine ⟨g, g', hg, hg', fun CE gE gE' hl hl' β sE s fuel out log hβ hs hL vars val a ha h => ?_⟩
  have n0 : fs ≠ [] := by
    obtain ⟨f, hf, -⟩ := hne
    exact List.ne_nil_of_mem hf
  obtain ⟨g0, hg0, hG⟩ := graph_ok (F := F) hfs n0
  rw [hg] at hg0
  cases Except.ok.inj hg0
  have hv := variablesOf_spec fs
  obtain ⟨b, b1, b2, b3⟩ := (stores_of_holds hC ha).update hv.1 (fun v => by rw [ha.sameVars, hv.2]) fun v hv' => by
    obtain ⟨f, hf, hv'⟩ := (ha.sameVars v).1 hv'; exact hpos f hf v hv'
  have hb : (a.map fin).updateStorageLayout CE gE.layout = .ok (b.map fin) := by
    have e : a.updateStorageLayout C (g.ops F C).layout = .ok b := by
      show a.updateStorageLayout C g.layout = _
      rw [hG.layout]; exact b1
    rw [hl.layout, hl.updateStorageLayout, e]; rfl
  obtain ⟨k, k1, k2, -, k3⟩ := C78_gauss_newton CE gE sE hb h
  refine ⟨k, k1, k2, fun sE' L' fuel' hL' hE' hi hf vars' a' ha' e' => ?_⟩
  obtain ⟨o1, o', val', r1, r2, r3, r4⟩ := main CE gE gE' hl hl' β ⟨false, sE.linear, true, k⟩ sE' s.linear L' k k fuel' hβ hL hL' hs.linear
    hE' rfl hi k2 le_rfl hf (Graph.variablesOf fs) vars' val b a' (b3.holds hv.2) ha' (by rw [b2, hG.layout]) e'
  obtain ⟨o, q1, q2⟩ := k3 false true k le_rfl
  rw [r1] at q1
  cases q1
  have la : a.layout = Layout.make C vars false := by have := ha.assignment.2.1; rwa [ha.isGlobal] at this
  obtain ⟨o2, t1, -, t3⟩ := (stores_of_holds hC r3).update ha.assignment.1 (fun v => by rw [ha.sameVars, hv.2]) fun v hv' => by
    obtain ⟨f, hf, hv'⟩ := (hv.2 v).1 hv'; exact hpos f hf v hv'
  have t4 : (o1.map fin).updateStorageLayout CE (a.map fin).layout = .ok (o2.map fin) := by
    have e : o1.updateStorageLayout C a.layout = .ok o2 := by rw [la]; exact t1
    show (o1.map fin).updateStorageLayout CE a.layout = _
    rw [hl.updateStorageLayout, e]; rfl
  rw [t4] at q2
  exact ⟨o2, o', val', (Except.ok.inj q2).symm, r2, t3.holds ha.sameVars, r4⟩

end

/-- The graph with the factors `x = 1` and `y = 2`, and the part with `x = 1`, with CHOLMOD. -/
example (stale : Pattern → ScipyCoo ℝ → ℝ → List ℝ → Py (List ℝ)) : ∃ p : Factor → Bool,
    (∀ f ∈ TwoPriors.fs, FactorWF Ex.F Ex.C f) ∧ (∃ f ∈ TwoPriors.fs, p f = true) ∧ (∃ f ∈ TwoPriors.fs, p f = false) ∧
    Separate TwoPriors.fs p ∧ ∃ a a' val, Holds Ex.C TwoPriors.fs [Ex.x, Ex.y] val a ∧ Holds Ex.C (TwoPriors.fs.filter p) [Ex.x] val a' ∧
    a.layout = TwoPriors.G.layout ∧ (∃ g', Graph.make Ex.C (TwoPriors.fs.filter p) = .ok g' ∧ a'.layout = g'.layout) ∧
    ExactlyDamped (fun A b l _ => (cholmodSolve stale .empty 7 A b l).1) (1 / 100000) := by
  have e : TwoPriors.fs.filter (fun f => decide (f.vars = [Ex.x])) = [⟨0, [Ex.x], .diagonal ⟨[1], [1]⟩, [⟨[1], [1]⟩]⟩] := rfl
  refine ⟨fun f => decide (f.vars = [Ex.x]), TwoPriors.fs_wf, ⟨_, List.mem_cons_self, rfl⟩,
    ⟨_, List.mem_cons_of_mem _ List.mem_cons_self, rfl⟩, ?_, TwoPriors.inOrder 3 4, ⟨[3], Layout.make Ex.C [Ex.x] false⟩,
    fun v => ⟨0, [⟨[1], [if v = Ex.x then 3 else 4]⟩]⟩, ?_, ?_, rfl, ⟨_, rfl, rfl⟩, C81_cholmod stale 7⟩
  · intro f hf f' hf' h1 h2 v hv hv'
    simp only [TwoPriors.fs, List.mem_cons, List.not_mem_nil, or_false] at hf hf'
    rcases hf with rfl | rfl
    · rcases hf' with rfl | rfl
      · simp at h2
      · simp at hv hv'; rw [hv] at hv'; exact absurd hv' (by decide)
    · exact absurd h1 (by decide)
  · refine ⟨⟨by decide, rfl, rfl⟩, rfl, fun v => ?_, fun v hv => ?_⟩
    · simp [TwoPriors.fs]
    · simp only [List.mem_cons, List.not_mem_nil, or_false] at hv
      rcases hv with rfl | rfl <;> rfl
  · rw [e]
    refine ⟨⟨by decide, rfl, rfl⟩, rfl, fun v => ?_, fun v hv => ?_⟩
    · simp
    · simp only [List.mem_cons, List.not_mem_nil, or_false] at hv
      subst hv
      rw [if_pos rfl]
      rfl

end Jaxfg.Props
