/- C83: a file on which the script with FIXED_ITERATION ends far from any solution. -/
import Verif.Lemmas.CrossedFile
import Verif.Props.PoseGraphMain

namespace Jaxfg.Props
open Spec
open Ext (fin)

namespace CrossedEx
open G2oEx G2oMixedEx Crossed
open G2oScriptEx (at')

noncomputable def graph : PoseGraph :=
  ⟨[(.se2, at' 0 0), (.se2, at' 2 0), (.se2, at' 0 0)], [⟨.se2, 0, 2, at' 1 0, 1⟩, ⟨.se2, 0, 1, at' 1 0, 1⟩]⟩

theorem fileSays : FileSays reader 100000 Crossed.lines graph := by
  refine ⟨.cons (line ["VERTEX_SE2".toList, "0".toList, "0".toList, "0".toList, "0".toList] (by simp) (by decide) (by decide))
      (.pose (.vertex2 (by rfl) (num _ [0, 0, 0] (by decide))) (fun _ => by decide))
    (.cons (line ["VERTEX_SE2".toList, "1".toList, "2".toList, "0".toList, "0".toList] (by simp) (by decide) (by decide))
      (.pose (.vertex2 (by rfl) (num _ [2, 0, 0] (by decide))) (fun _ => by decide))
    (.cons (line ["VERTEX_SE2".toList, "2".toList, "0".toList, "0".toList, "0".toList] (by simp) (by decide) (by decide))
      (.pose (.vertex2 (by rfl) (num _ [0, 0, 0] (by decide))) (fun _ => by decide))
    (.cons (line ("EDGE_SE2".toList :: "0".toList :: "2".toList :: (["1".toList, "0".toList, "0".toList] ++
        ["1".toList, "0".toList, "0".toList, "1".toList, "0".toList, "1".toList])) (by simp) (by decide) (by decide))
      (.edge (i := 0) (j := 2) (.edge2 (P := 1) (by rfl) (by rfl) (num _ [1, 0, 0] (by decide)) up one) (fun _ => by decide)
        Matrix.PosDef.one ⟨by decide, .inl rfl⟩ ⟨by decide, .inl rfl⟩ rfl rfl)
    (.cons (line ("EDGE_SE2".toList :: "0".toList :: "1".toList :: (["1".toList, "0".toList, "0".toList] ++
        ["1".toList, "0".toList, "0".toList, "1".toList, "0".toList, "1".toList])) (by simp) (by decide) (by decide))
      (.edge (i := 0) (j := 1) (.edge2 (P := 1) (by rfl) (by rfl) (num _ [1, 0, 0] (by decide)) up one) (fun _ => by decide)
        Matrix.PosDef.one ⟨by decide, .inl rfl⟩ ⟨by decide, .inl rfl⟩ rfl rfl)
    (.nil _))))), by simp [graph]⟩

theorem covered : Covered graph := by
  intro i hi h0
  have : i = 1 ∨ i = 2 := by
    have : i < 3 := hi
    omega
  rcases this with rfl | rfl
  · exact ⟨⟨.se2, 0, 1, at' 1 0, 1⟩, by simp [graph], .inr rfl⟩
  · exact ⟨⟨.se2, 0, 2, at' 1 0, 1⟩, by simp [graph], .inr rfl⟩

theorem not_inOrder : ¬ InOrder graph := by
  intro h
  have := h [0] 2 [0, 1] rfl 1 (by decide)
  simp at this

end CrossedEx

open CrossedEx in
/-- **C83, FIXED_ITERATION and the order of the edges.** A file with the poses 0, 2, 0 on the x axis and two edges from pose 0, first to
pose 2 and then to pose 1, both of length 1. The poses 0, 1, 1 have objective 0 and the poses of the file objective 2. With the solver type
FIXED_ITERATION the script ends at poses with an objective above two million: every step moves pose 1 by what is meant for pose 2 and
conversely. -/
theorem C83_fixed_crossed : FileSays G2oEx.reader 100000 Crossed.lines graph ∧ Covered graph ∧ ¬ InOrder graph ∧
    fileObjective none graph (fun i => (graph.poses.getD i (.se2, [])).2) = 2 ∧
    fileObjective none graph (fun i => Crossed.at_ (if i = 0 then 0 else 1)) = 0 ∧
    ∃ data vars, parseG2o G2oEx.reader 100000 0 Crossed.lines = .ok data ∧ vars.Nodup ∧
      ∀ (stale : Pattern → ScipyCoo ℝ → ℝ → List ℝ → Py (List ℝ)) (addr : Nat → Nat) CE gE (solver : Nat → AnySolver Ext),
      (∀ G : Graph, Lifts CE (gE G) g2oClasses (G.ops g2oFactors g2oClasses)) →
      (∀ j, LiftsAny (solver j) (SolverType.fixedIteration.getSolver (freshCholmod stale (addr j)))) →
      ∃ o x, StoresPoses graph vars x o ∧ 2000000 < fileObjective none graph x ∧
        ∀ fuel : Nat, 100 ≤ fuel → ∃ plot, scriptMain CE gE solver fuel none data = .ok (some (o.map fin, plot)) := by
  have hh : ∀ δ, (none : Option ℝ) = some δ → 0 < δ := fun _ h => by cases h
  obtain ⟨data, G, a, vars, k1, k2, hnd, hk, hty, k3, k4⟩ := C75_objective G2oEx.reader 100000 0 _ graph fileSays none hh
  cases Except.ok.inj (Crossed.parse_eq.symm.trans k1)
  cases Except.ok.inj (Crossed.problem_eq.symm.trans k2)
  have k4 := k4 covered
  obtain rfl : [Crossed.v0, Crossed.v1, Crossed.v2] = vars := hk
  have obj : ∀ {q r x}, StoresPoses graph [Crossed.v0, Crossed.v1, Crossed.v2] x (Crossed.poses 0 q r) →
      fileObjective none graph x = (1 - r) ^ 2 + (1 - q) ^ 2 := by
    intro q r x hx
    obtain ⟨r', e⟩ := k4 _ _ hx
    have e' := Crossed.cost_eq q r
    have := Except.ok.inj (e.symm.trans e')
    exact (Prod.mk.inj this).1
  refine ⟨fileSays, covered, not_inOrder, ?_, ?_, Crossed.data, _, Crossed.parse_eq, hnd, fun stale addr CE gE solver hl hs => ?_⟩
  · rw [obj k3]
    norm_num
  · have hst : StoresPoses graph [Crossed.v0, Crossed.v1, Crossed.v2] (fun i => Crossed.at_ (if i = 0 then 0 else 1)) (Crossed.poses 0 1 1) := by
      refine ⟨⟨[Crossed.v0, Crossed.v1, Crossed.v2], ⟨by decide, rfl, rfl⟩, .refl _⟩, rfl, ?_⟩
      intro i v k y hv hy
      match i, hv, hy with
      | 0, hv, hy => cases hv; cases hy; simp only [if_pos]; rfl
      | 1, hv, hy => cases hv; cases hy; simp only [if_neg one_ne_zero]; rfl
      | 2, hv, hy => cases hv; cases hy; simp only [if_neg two_ne_zero]; rfl
    rw [obj hst]
    norm_num
  · obtain ⟨data', G', a', vars', k₀, mu, m1, m2, -, mk, -, -, hmain⟩ :=
      C83_main G2oEx.reader 100000 0 _ graph fileSays none hh .fixedIteration covered
    cases Except.ok.inj (Crossed.parse_eq.symm.trans m1)
    cases Except.ok.inj (Crossed.problem_eq.symm.trans m2)
    obtain rfl : [Crossed.v0, Crossed.v1, Crossed.v2] = vars' := mk
    obtain ⟨o, x, log, hx, -, hrun⟩ := hmain stale addr CE gE solver hl hs
    have hfar : o = Crossed.poses 0 (1 + (200001 / 100001) ^ 10) (1 - (200001 / 100001) ^ 10) := by
      obtain ⟨h1, -⟩ := hrun 100 le_rfl
      have hs1 := hs 1
      simp only [if_true] at h1
      obtain ⟨s1, e1⟩ : ∃ s1, s1 = solver 1 := ⟨_, rfl⟩
      rw [← e1] at h1 hs1
      cases s1 <;> first | exact absurd hs1 id | skip
      rename_i sE
      obtain ⟨-, hlin, hu, hit⟩ := hs1
      obtain ⟨log', h2⟩ := Crossed.far_solve (hl Crossed.G) hlin hu hit 100 (by norm_num)
      have h3 := Option.some.inj (Except.ok.inj (h1.symm.trans h2))
      have h4 := (Prod.mk.inj h3).1
      have h5 := congrArg (Assign.map Ext.toReal) h4
      simp only [Assign.map, list_toReal] at h5
      exact h5
    subst hfar
    refine ⟨_, x, hx, ?_, fun fuel hf => ⟨_, (hrun fuel hf).2⟩⟩
    rw [obj hx]
    norm_num

end Jaxfg.Props
