/- C62 for any text. -/
import Verif.Lemmas.G2oAny
import Verif.Props.G2o

namespace Jaxfg.Props
open Spec
open Matrix hiding vec

/-- Reading any text, with records of both groups and any indices: it is accepted iff it says something, and the result is then
what it says. -/
theorem C62_any_file (R : Reader) (limit : Int) (next : Nat) (lines : List (List Char)) :
    (∀ data, parseG2o R limit next lines = .ok data → ∃ g, FileSays R limit lines g ∧ DescribesGraph g data) ∧
    (∀ g, FileSays R limit lines g → ∃ data, parseG2o R limit next lines = .ok data ∧ DescribesGraph g data) := by
  have fin : ∀ (g : PoseGraph) (s : G2oState), lines.foldlM (fun s l => s.line R limit (fields l))
      (⟨next, [], .empty, []⟩ : G2oState) = .ok s → StateFor next g s →
      (g.poses = [] → ∃ e, parseG2o R limit next lines = .error e) ∧
      (g.poses ≠ [] → ∃ data, parseG2o R limit next lines = .ok data ∧ DescribesGraph g data) := by
    intro g s hs hst
    have e : parseG2o R limit next lines = (pyGet s.poseVariables 0 >>= fun v => s.initialPoses.get v >>= fun mu =>
        .ok ⟨s.factors ++ [PriorFactor.make (priorCls mu.treedef) v mu
          (.diagonal ⟨[(g2oGroup v.ty).tangentDim], List.replicate (g2oGroup v.ty).tangentDim (1 * 100)⟩)], s.initialPoses⟩) := by
      unfold parseG2o
      rw [hs]
      rfl
    rw [e]
    constructor
    · intro hn
      rw [hst.vars, hn]
      exact ⟨_, rfl⟩
    · intro hn
      obtain ⟨⟨k, mu⟩, tl, hcons⟩ := List.exists_cons_of_ne_nil hn
      have hk : k = .se2 ∨ k = .se3 := hst.groups (k, mu) (by rw [hcons]; simp)
      obtain ⟨vs, hvs⟩ : ∃ vs, posesVars next g.poses = ⟨k.fileTy, next⟩ :: vs := by
        rw [hcons, posesVars, List.mapIdx_cons]
        exact ⟨_, rfl⟩
      have hg : pyGet s.poseVariables 0 = .ok ⟨k.fileTy, next⟩ := by rw [hst.vars, hvs]; rfl
      have hm : s.initialPoses.get ⟨k.fileTy, next⟩ = .ok (k.ops.value mu) := by
        unfold PyDict.get PyDict.get?
        rw [hst.poses, hvs, hcons, List.map_cons, List.zip_cons_cons, List.lookup_cons, beq_self_eq_true]
      rw [hg]
      show ∃ data, (s.initialPoses.get ⟨k.fileTy, next⟩ >>= fun mu => _) = _ ∧ _
      rw [hm]
      exact ⟨_, rfl, posesVars next g.poses, posesVars_nodup _, posesVars_ty _, hst.poses, s.factors, _, ⟨k.fileTy, next⟩, k, mu,
        rfl, hst.factors, by rw [hvs]; rfl, by rw [hcons]; rfl, anchor_spec hk rfl mu⟩
  constructor
  · intro data hd
    cases hs : lines.foldlM (fun s l => s.line R limit (fields l)) (⟨next, [], .empty, []⟩ : G2oState) with
    | error e => unfold parseG2o at hd; rw [hs] at hd; cases hd
    | ok s =>
      obtain ⟨g, hg, hst⟩ := StateFor.lines_ok lines stateFor_nil hs
      by_cases hn : g.poses = []
      · obtain ⟨e, he⟩ := (fin g s hs hst).1 hn
        rw [hd] at he
        cases he
      · obtain ⟨data', hd', hdesc⟩ := (fin g s hs hst).2 hn
        obtain rfl : data' = data := Except.ok.inj (hd'.symm.trans hd)
        exact ⟨g, ⟨hg, hn⟩, hdesc⟩
  · rintro g ⟨hg, hn⟩
    obtain ⟨s, hs, hst⟩ := StateFor.lines hg (stateFor_nil (next := next))
    exact (fin g s hs hst).2 hn

/-! ### Cases -/

namespace G2oMixedEx
open G2oEx

theorem hasPieces_of_isLine {ps : List (List Char)} {l : List Char} (h : IsLine ps l) : HasPieces ps l :=
  fields_pieces.2 ⟨fields_line h, by
    obtain ⟨_, _, _, _, _, hs, _⟩ := h
    cases hs <;> simp⟩

/-- Two poses in space, then a planar pose, then an edge between the last two poses in space, one of them named from the end. -/
def lines : List (List Char) :=
  ["VERTEX_SE3:QUAT 0 0 0 0 0 0 0 1\n".toList, "VERTEX_SE3:QUAT 1 5 0 0 0 0 0 1\n".toList, "VERTEX_SE2 2 5 0 0\n".toList,
    "EDGE_SE3:QUAT 0 -2 4 0 0 0 0 0 1 1 0 0 0 0 0 1 0 0 0 0 1 0 0 0 1 0 0 1 0 1\n".toList]

noncomputable def pose (x : Int) : List ℝ := [(1 : Int), (0 : Int), (0 : Int), (0 : Int), x, (0 : Int), (0 : Int)]

theorem upper_one3 : upperTriangle (1 : Matrix (Fin LieType.se3.ops.tangentDim) (Fin LieType.se3.ops.tangentDim) ℝ) =
    ([1, 0, 0, 0, 0, 0, 1, 0, 0, 0, 0, 1, 0, 0, 0, 1, 0, 0, 1, 0, 1].map fun n : Int => (n : ℝ)) := by
  show upperTriangle (1 : Matrix (Fin 6) (Fin 6) ℝ) = _
  simp [upperTriangle, List.finRange_succ]

theorem vertex (n x : List Char) (i a : Int) (hn : readInt n = .ok i) (hx : readInt x = .ok a) :
    Reads reader .se3 ["VERTEX_SE3:QUAT".toList, n, x, "0".toList, "0".toList, "0".toList, "0".toList, "0".toList, "1".toList]
      (.vertex i (pose a)) :=
  .vertex3 hn (num [x, "0".toList, "0".toList, "0".toList, "0".toList, "0".toList, "1".toList] [a, 0, 0, 0, 0, 0, 1] (by
    rw [List.mapM_cons, hx]; rfl))

theorem line (ps : List (List Char)) {l : List Char} (h : ps ≠ []) (hw : ∀ p ∈ ps, p ≠ [] ∧ p.all (fun c => !decide (WhiteChar c)) = true)
    (hl : l = join ps ++ ['\n']) : HasPieces ps l := hasPieces_of_isLine (line_of h hw hl)

/-- With a limit of 2 or more the planar pose is kept. -/
theorem says_two : FileSays reader 2 lines ⟨[(.se3, pose 0), (.se3, pose 5), (.se2, [Real.cos (0 : Int), Real.sin (0 : Int), (5 : Int), (0 : Int)])],
    [⟨.se3, 0, 1, pose 4, 1⟩]⟩ := by
  refine ⟨.cons (line ["VERTEX_SE3:QUAT".toList, "0".toList, "0".toList, "0".toList, "0".toList, "0".toList, "0".toList, "0".toList, "1".toList]
      (by simp) (by decide) (by decide)) (.pose (vertex _ _ 0 0 (by rfl) (by rfl)) (fun h => by cases h))
    (.cons (line ["VERTEX_SE3:QUAT".toList, "1".toList, "5".toList, "0".toList, "0".toList, "0".toList, "0".toList, "0".toList, "1".toList]
      (by simp) (by decide) (by decide)) (.pose (vertex _ _ 1 5 (by rfl) (by rfl)) (fun h => by cases h))
    (.cons (line ["VERTEX_SE2".toList, "2".toList, "5".toList, "0".toList, "0".toList] (by simp) (by decide) (by decide))
      (.pose (.vertex2 (by rfl) (num _ [5, 0, 0] (by decide))) (fun _ => by decide))
    (.cons (line ("EDGE_SE3:QUAT".toList :: "0".toList :: "-2".toList :: (["4".toList, "0".toList, "0".toList, "0".toList, "0".toList, "0".toList,
        "1".toList] ++ ["1".toList, "0".toList, "0".toList, "0".toList, "0".toList, "0".toList, "1".toList, "0".toList, "0".toList,
        "0".toList, "0".toList, "1".toList, "0".toList, "0".toList, "0".toList, "1".toList, "0".toList, "0".toList, "1".toList,
        "0".toList, "1".toList])) (by simp) (by decide) (by decide))
      (.edge (i := 0) (j := -2) (.edge3 (P := 1) (by rfl) (by rfl) (num _ [4, 0, 0, 0, 0, 0, 1] (by decide))
        (by rw [upper_one3]; exact num _ _ (by decide)) Matrix.transpose_one) (fun h => by cases h) Matrix.PosDef.one
        ⟨by decide, .inl rfl⟩ ⟨by decide, .inr rfl⟩ rfl rfl) (.nil _)))), by simp⟩

/-- With limit 1 the planar pose is dropped, although it is the first planar pose of the file. -/
theorem says_one : ∃ es, FileSays reader 1 (lines.take 3) ⟨[(.se3, pose 0), (.se3, pose 5)], es⟩ := by
  exact ⟨[], .cons (line ["VERTEX_SE3:QUAT".toList, "0".toList, "0".toList, "0".toList, "0".toList, "0".toList, "0".toList, "0".toList, "1".toList]
      (by simp) (by decide) (by decide)) (.pose (vertex _ _ 0 0 (by rfl) (by rfl)) (fun h => by cases h))
    (.cons (line ["VERTEX_SE3:QUAT".toList, "1".toList, "5".toList, "0".toList, "0".toList, "0".toList, "0".toList, "0".toList, "1".toList]
      (by simp) (by decide) (by decide)) (.pose (vertex _ _ 1 5 (by rfl) (by rfl)) (fun h => by cases h))
    (.cons (line ["VERTEX_SE2".toList, "2".toList, "5".toList, "0".toList, "0".toList] (by simp) (by decide) (by decide))
      (.skipPose (by decide)) (.nil _))), by simp⟩

example : ∃ data, parseG2o reader 2 0 lines = .ok data ∧ data.initialPoses.items.length = 3 ∧ data.factors.length = 2 := by
  obtain ⟨data, h1, vars, _, hty, hpo, fs, anchor, v₀, k, mu, hfs, hf, _⟩ := (C62_any_file reader 2 0 lines).2 _ says_two
  refine ⟨data, h1, ?_, ?_⟩
  · have := congrArg List.length hty
    simp only [List.length_map, List.length_cons, List.length_nil] at this
    rw [hpo, List.length_zip, this]
    rfl
  · rw [hfs, List.length_append, ← hf.length_eq]
    rfl

end G2oMixedEx

/-- In a file with records of both groups the limit does not keep the first `limit + 1` planar poses: here the limit is 1, and the
only planar pose is dropped because poses in space come before it. -/
theorem C62_mixed_limit : ∃ (R : Reader) (lines : List (List Char)) (data : G2oData), parseG2o R 1 0 lines = .ok data ∧
    (∃ l ∈ lines, ∃ ps x, IsLine ps l ∧ Reads R .se2 ps (.vertex 2 x)) ∧ ∀ p ∈ data.initialPoses.items, p.1.ty ≠ LieType.se2.fileTy := by
  obtain ⟨es, hsays⟩ := G2oMixedEx.says_one
  obtain ⟨data, h1, vars, _, hty, hpo, _⟩ := (C62_any_file G2oEx.reader 1 0 (G2oMixedEx.lines.take 3)).2 _ hsays
  refine ⟨_, _, data, h1, ⟨"VERTEX_SE2 2 5 0 0\n".toList, by simp [G2oMixedEx.lines], _, _,
    G2oEx.line_of (ps := ["VERTEX_SE2".toList, "2".toList, "5".toList, "0".toList, "0".toList]) (by simp) (by decide) (by decide),
    .vertex2 (by rfl) (G2oEx.num _ [5, 0, 0] (by decide))⟩, ?_⟩
  rintro ⟨v, x⟩ hv
  rw [hpo] at hv
  have := List.mem_map_of_mem (f := Var.ty) (List.of_mem_zip hv).1
  rw [hty] at this
  simp only [List.map_cons, List.map_nil, List.mem_cons, List.not_mem_nil, or_false, or_self] at this
  show v.ty ≠ _
  rw [this]
  decide

end Jaxfg.Props
