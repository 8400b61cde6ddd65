/- Lemmas about `main` of the pose graph script. -/
import Verif.Model.PoseGraphMain
import Verif.Spec.PoseGraphMain
import Verif.Lemmas.PoseGraphScript
import Verif.Lemmas.Lift
import Verif.Props.Assign

namespace Jaxfg
open Spec
open Ext (fin)

section
variable {CE : Ty → VarClass Ext} {gE : GraphOps Ext} {C : Ty → VarClass ℝ} {g : GraphOps ℝ}

theorem Lifts.getStackedValue (h : Lifts CE gE C g) (a : Assign ℝ) (t : Ty) :
    (a.map fin).getStackedValue CE t = (a.getStackedValue C t).map (List.map (Value.map fin)) := by
  have e : (a.map fin).layout = a.layout := rfl
  have e' : (a.map fin).storage = a.storage.map fin := rfl
  unfold Assign.getStackedValue
  rw [e, e', h.paramDim]
  cases a.layout.indexFromType.get t with
  | error e => rfl
  | ok i =>
    cases a.layout.countFromType.get t with
    | error e => rfl
    | ok n =>
      rw [py_bind_ok, py_bind_ok, py_bind_ok, py_bind_ok, slice_map, reshape2_map]
      cases reshape2 (slice a.storage i ((C t).paramDim * n)) n (C t).paramDim with
      | error e => rfl
      | ok rows => exact mapM_map (fun l => unflatten_map (h.default t) l) rows

theorem Lifts.translations (h : Lifts CE gE C g) (a : Assign ℝ) (t : Ty) :
    translations CE (a.map fin) t = (translations C a t).map (List.map (List.map fin)) := by
  unfold Jaxfg.translations
  rw [h.getStackedValue]
  cases a.getStackedValue C t with
  | error e => rfl
  | ok xs =>
    simp only [Except.map, py_bind_ok]
    show Except.ok _ = Except.ok _
    congr 1
    rw [List.map_map, List.map_map]
    refine List.map_congr_left fun x _ => ?_
    simp only [Function.comp_apply]
    rw [flatten_value_map, List.map_drop]

end

theorem filter_range {α : Type} (l : List α) (p : α → Bool) (d : α) :
    l.filter p = ((List.range l.length).filter fun i => p (l.getD i d)).map fun i => l.getD i d := by
  have h : (List.range l.length).map (fun i => l.getD i d) = l := by
    apply List.ext_getElem (by simp)
    intro i h1 h2
    simp [List.getD_eq_getElem?_getD, h2]
  conv_lhs => rw [← h]
  rw [List.filter_map]
  rfl

/-- What is drawn of stored poses. -/
theorem translations_ok {g : PoseGraph} {vars : List Var} (hty : vars.map (·.ty) = g.poses.map (·.1.fileTy))
    (hg : SoundGraph g) {x : Nat → List ℝ} {a : Assign ℝ} (hst : StoresPoses g vars x a)
    (hord : ∀ t, a.getVariables.filter (·.ty = t) = vars.filter (·.ty = t)) {k : LieType} (hk : k = .se2 ∨ k = .se3)
    (hex : ∃ p ∈ g.poses, p.1 = k) : translations g2oClasses a k.fileTy = .ok (positions g k x) := by
  obtain ⟨⟨ws, hws, hperm⟩, hflag, hval⟩ := hst
  have hlen : vars.length = g.poses.length := by simpa using congrArg List.length hty
  have hC : GoodClasses g2oClasses := lie_goodClasses g2oClasses_eq
  have hkinds : ∀ p ∈ g.poses, p.1 = .se2 ∨ p.1 = .se3 := fun p hp => (hg.poses p hp).1
  have hinj : ∀ k', (k' = .se2 ∨ k' = .se3) → (k'.fileTy = k.fileTy ↔ k' = k) := by
    intro k' hk'
    rcases hk with rfl | rfl <;> rcases hk' with rfl | rfl <;> decide
  have htyi : ∀ (i : Nat) (v : Var) (k' : LieType) y, vars[i]? = some v → g.poses[i]? = some (k', y) → v.ty = k'.fileTy := by
    intro i v k' y h1 h2
    have e := congrArg (fun l : List Ty => l[i]?) hty
    simpa only [List.getElem?_map, h1, h2, Option.map_some, Option.some.injEq] using e
  have hmem : ∃ v ∈ ws, v.ty = k.fileTy := by
    obtain ⟨⟨k', y⟩, hp, rfl⟩ := hex
    obtain ⟨i, hi⟩ := List.mem_iff_getElem?.1 hp
    have hlt : i < vars.length := by rw [hlen]; exact (List.getElem?_eq_some_iff.1 hi).1
    exact ⟨vars[i], hperm.mem_iff.2 (List.getElem_mem hlt), htyi i _ _ _ (List.getElem?_eq_getElem hlt) hi⟩
  obtain ⟨xs, h1, h2, -⟩ := (Props.C10_stacked_value g2oClasses ws a hws hflag k.fileTy).1 hmem
  unfold Jaxfg.translations
  rw [h1, py_bind_ok]
  show Except.ok _ = Except.ok _
  congr 1
  rw [hord, filter_range vars _ (⟨0, 0⟩ : Var)] at h2
  have hfil : (List.range vars.length).filter (fun i => decide ((vars.getD i ⟨0, 0⟩).ty = k.fileTy)) =
      (List.range g.poses.length).filter fun i => (g.poses.getD i (.se2, [])).1 = k := by
    rw [hlen]
    apply List.filter_congr
    intro i hi
    have hi' : i < g.poses.length := List.mem_range.1 hi
    have hiv : i < vars.length := by rw [hlen]; exact hi'
    have e1 := List.getElem?_eq_getElem hiv
    have e2 : g.poses[i]? = some (g.poses[i].1, g.poses[i].2) := List.getElem?_eq_getElem hi'
    have e3 := htyi i _ _ _ e1 e2
    simp only [List.getD_eq_getElem?_getD, e1, e2, Option.getD_some]
    rw [e3]
    exact decide_eq_decide.2 (hinj _ (hkinds _ (List.getElem_mem hi')))
  rw [hfil] at h2
  unfold positions
  have key : ∀ (is : List Nat), (∀ i ∈ is, i < g.poses.length ∧ (g.poses.getD i (.se2, [])).1 = k) → ∀ zs : List (Value ℝ),
      List.Forall₂ (fun v x => a.getValue g2oClasses v = .ok x) (is.map fun i => vars.getD i ⟨0, 0⟩) zs →
      zs.map (fun x => x.flatten.drop (if k.fileTy = se3Ty then 4 else 2)) = is.map fun i => position k (x i) := by
    intro is
    induction is with
    | nil => intro _ zs h; cases h; rfl
    | cons i is ih =>
      intro his zs h
      rw [List.map_cons] at h
      obtain ⟨z, zs, hz, hzs, rfl⟩ := List.forall₂_cons_left_iff.1 h
      rw [List.map_cons, List.map_cons, ih (fun j hj => his j (List.mem_cons_of_mem _ hj)) _ hzs]
      congr 1
      obtain ⟨hi, hik⟩ := his i (List.mem_cons_self ..)
      have hiv : i < vars.length := by rw [hlen]; exact hi
      have e1 : vars[i]? = some (vars.getD i ⟨0, 0⟩) := by
        rw [List.getD_eq_getElem?_getD, List.getElem?_eq_getElem hiv]; rfl
      have e2 : g.poses[i]? = some (k, (g.poses.getD i (.se2, [])).2) := by
        rw [List.getD_eq_getElem?_getD, List.getElem?_eq_getElem hi] at hik ⊢
        simp only [Option.getD_some] at hik ⊢
        rw [← hik]
      have hv := hval i _ _ _ e1 e2
      rw [hz] at hv
      obtain rfl := Except.ok.inj hv
      -- the stored value has the right size
      have hin : vars.getD i ⟨0, 0⟩ ∈ ws := hperm.mem_iff.2 (List.mem_of_getElem? e1)
      obtain ⟨f, hf⟩ := exists_rep hws
      rw [hflag] at hf
      rw [hf.getValue_ok hin] at hz
      have hsz : IsValueOf (g2oClasses (vars.getD i ⟨0, 0⟩).ty) (k.ops.value (x i)) := by
        rw [← Except.ok.inj hz]
        exact isValueOf_unravel (hC _).1 (hf.len _ hin)
      rw [g2oClasses_eq, htyi i _ _ _ e1 e2, fileGroup_fileTy hk] at hsz
      obtain ⟨y, hy, hy'⟩ := (isValueOf_lie _).1 hsz
      have hxy : x i = y := by
        have := congrArg Value.flatten hy
        rwa [value_flatten, value_flatten] at this
      rw [value_flatten, hxy]
      rcases hk with rfl | rfl
      · match y, hy' with
        | [_, _, _, _], _ => rfl
      · match y, hy' with
        | [_, _, _, _, _, _, _], _ => rfl
  exact key _ (fun i hi => by
    obtain ⟨h3, h4⟩ := List.mem_filter.1 hi
    exact ⟨List.mem_range.1 h3, of_decide_eq_true h4⟩) xs h2

/-- The plot of two stored lists of poses. -/
theorem scriptPlot_ok {CE : Ty → VarClass Ext} {gE : GraphOps Ext} {gR : GraphOps ℝ} (hl : Lifts CE gE g2oClasses gR) {g : PoseGraph}
    {vars : List Var} (hty : vars.map (·.ty) = g.poses.map (·.1.fileTy)) (hg : SoundGraph g) {x y : Nat → List ℝ} {a b : Assign ℝ}
    (ha : IsAssignmentOf g2oClasses vars a) (hax : StoresPoses g vars x a) (hby : StoresPoses g vars y b) (hlay : b.layout = a.layout)
    {k : LieType} {mu : List ℝ} (h0 : g.poses.head? = some (k, mu)) :
    scriptPlot CE (a.map fin) (b.map fin) =
      .ok ⟨decide (k = .se2), (positions g k x).map (List.map fin), (positions g k y).map (List.map fin)⟩ := by
  obtain ⟨f, hf⟩ := exists_rep ha
  have hord : ∀ t, a.getVariables.filter (·.ty = t) = vars.filter (·.ty = t) := by
    intro t
    unfold Assign.getVariables
    rw [hf.layout, make_getVariables _ ha.1]
    exact filter_grouped
  have hord' : ∀ t, b.getVariables.filter (·.ty = t) = vars.filter (·.ty = t) := by
    intro t
    have : b.getVariables = a.getVariables := by unfold Assign.getVariables; rw [hlay]
    rw [this]; exact hord t
  have hp : (k, mu) ∈ g.poses := List.mem_of_mem_head? h0
  have hk := (hg.poses _ hp).1
  have e1 := translations_ok hty hg hax hord hk ⟨_, hp, rfl⟩
  have e2 := translations_ok hty hg hby hord' hk ⟨_, hp, rfl⟩
  have e1' := hl.translations a k.fileTy
  have e2' := hl.translations b k.fileTy
  rw [e1] at e1'
  rw [e2] at e2'
  obtain ⟨v, hv, hvt⟩ : ∃ v : Var, pyGet (b.map fin).getVariables 0 = .ok v ∧ v.ty = k.fileTy := by
    have e : (b.map fin).getVariables = grouped vars := by
      show b.layout.getVariables = _
      rw [hlay, hf.layout, make_getVariables _ ha.1]
    rw [e]
    match vars, hty with
    | [], h =>
      match hgp : g.poses with
      | [] => rw [hgp] at hp; cases hp
      | _ :: _ => rw [hgp] at h; cases h
    | v :: vs, h =>
      match hgp : g.poses with
      | [] => rw [hgp] at hp; cases hp
      | p :: ps =>
        rw [hgp] at h h0
        obtain rfl : p = (k, mu) := Option.some.inj h0
        refine ⟨v, ?_, (List.cons.inj h).1⟩
        have : grouped (v :: vs) = v :: (vs.filter (·.ty = v.ty) ++
            ((firstTypes vs).filter (· ≠ v.ty)).flatMap fun t => (v :: vs).filter (·.ty = t)) := by
          simp [grouped, firstTypes]
        rw [this]
        rfl
  unfold scriptPlot
  rw [hv, py_bind_ok, hvt]
  rcases hk with hk | hk <;> simp only at hk <;> subst hk
  · rw [if_pos (by rfl)]
    have f1 : Jaxfg.translations CE (a.map fin) se2Ty = _ := e1'
    have f2 : Jaxfg.translations CE (b.map fin) se2Ty = _ := e2'
    rw [f1, f2]
    rfl
  · rw [if_neg (by decide), if_pos (by rfl)]
    have f1 : Jaxfg.translations CE (a.map fin) se3Ty = _ := e1'
    have f2 : Jaxfg.translations CE (b.map fin) se3Ty = _ := e2'
    rw [f1, f2]
    rfl

/-! ### The order of the graph -/

theorem foldl_set_keys {κ : Type} [DecidableEq κ] (vs ws : List κ) {d : PyDict κ Unit} (h : d.keys = firstKeys id ws) :
    (vs.foldl (fun d v => d.set v ()) d).keys = firstKeys id (ws ++ vs) := by
  induction vs generalizing ws d with
  | nil => simpa using h
  | cons v vs ih =>
    rw [List.foldl_cons]
    have : (d.set v ()).keys = firstKeys id (ws ++ [v]) := by
      rw [PyDict.keys_set, h, firstKeys_concat]
      rfl
    rw [ih _ this]
    simp

/-- The graph has its variables in the order in which the factors first mention them. -/
theorem variablesOf_eq (fs : List Factor) : Graph.variablesOf fs = firstKeys id (fs.flatMap (·.vars)) := by
  unfold Graph.variablesOf
  have aux : ∀ (ws : List Var) (d : PyDict Var Unit), d.keys = firstKeys id ws →
      (fs.foldl (fun d f => f.vars.foldl (fun d v => d.set v ()) d) d).keys = firstKeys id (ws ++ fs.flatMap (·.vars)) := by
    induction fs with
    | nil => intro ws d h; simpa using h
    | cons f fs ih =>
      intro ws d h
      rw [List.foldl_cons, ih _ _ (foldl_set_keys f.vars ws h)]
      simp
  simpa using aux [] .empty rfl

theorem firstKeys_range {M : List Nat} (h : ∀ pre i post, M = pre ++ i :: post → ∀ j < i, j ∈ pre) : ∃ m, firstKeys id M = List.range m := by
  induction M using List.reverseRecOn with
  | nil => exact ⟨0, rfl⟩
  | append_singleton xs v ih =>
    obtain ⟨m, hm⟩ := ih fun pre i post e => h pre i (post ++ [v]) (by rw [e]; simp)
    rw [firstKeys_concat, hm]
    have hmem : ∀ j, j ∈ xs ↔ j < m := by
      intro j
      have : j ∈ firstKeys id xs ↔ ∃ x ∈ xs, id x = j := mem_firstKeys
      rw [hm, List.mem_range] at this
      simpa using this.symm
    by_cases hv : v < m
    · exact ⟨m, by rw [if_pos (by simpa using hv)]⟩
    · have hle : v = m := by
        by_contra hne
        have hlt : m < v := by omega
        exact absurd ((hmem m).1 (h xs v [] rfl m hlt)) (by omega)
      refine ⟨m + 1, ?_⟩
      rw [if_neg (by simpa using hv), hle, List.range_succ]
      rfl

theorem firstKeys_id_map {α β : Type} [DecidableEq α] [DecidableEq β] (φ : α → β) (xs : List α)
    (h : ∀ x ∈ xs, ∀ y ∈ xs, φ x = φ y → x = y) : firstKeys id (xs.map φ) = (firstKeys id xs).map φ := by
  induction xs with
  | nil => rfl
  | cons x xs ih =>
    rw [List.map_cons]
    show φ x :: (firstKeys id (xs.map φ)).filter (· ≠ φ x) = φ x :: ((firstKeys id xs).filter (· ≠ x)).map φ
    rw [ih fun a ha b hb => h a (by simp [ha]) b (by simp [hb]), List.filter_map]
    congr 2
    apply List.filter_congr
    intro y hy
    have hy' : y ∈ xs := by simpa using mem_firstKeys.1 hy
    have : φ y = φ x ↔ y = x := ⟨h y (by simp [hy']) x (by simp), fun e => by rw [e]⟩
    simp [this]

/-- What the factors of the script mention, in order. -/
theorem script_mentions {huber : Option ℝ} {g : PoseGraph} {data : G2oData} (h : DescribesGraph g data) :
    (scriptFactors huber data).flatMap (·.vars) =
      ((g.edges.flatMap fun e : FileEdge => [e.a, e.b]) ++ [0]).map fun i => data.initialPoses.keys.getD i ⟨0, 0⟩ := by
  obtain ⟨vars, hnd, hty, hpo, fs, anchor, v₀, k, mu, hfs, hed, hv₀, hp₀, han⟩ := h
  have hlen : vars.length = g.poses.length := by simpa using congrArg List.length hty
  have hkeys : data.initialPoses.keys = vars := by
    unfold PyDict.keys
    rw [hpo, List.map_fst_zip (by simp [hlen])]
  have e1 : (scriptFactors huber data).flatMap (·.vars) = data.factors.flatMap (·.vars) := by
    cases huber with
    | none => rfl
    | some δ =>
      show (data.factors.map (wrapHuber δ)).flatMap (·.vars) = _
      rw [List.flatMap_map]
      rfl
  rw [e1, hfs, hkeys, List.flatMap_append, List.map_append]
  congr 1
  · have key : ∀ {l : List FileEdge} {fs : List Factor},
        List.Forall₂ (fun e f => ∃ a b, vars[e.a]? = some a ∧ vars[e.b]? = some b ∧ IsEdgeFactor e.k a b e.T e.P f) l fs →
        fs.flatMap (·.vars) = (l.flatMap fun e : FileEdge => [e.a, e.b]).map fun i => vars.getD i ⟨0, 0⟩ := by
      intro l fs h
      induction h with
      | nil => rfl
      | cons hef _ ih =>
        obtain ⟨a, b, ha, hb, hf⟩ := hef
        rw [List.flatMap_cons, List.flatMap_cons, List.map_append, ← ih, hf.vars]
        simp [List.getD_eq_getElem?_getD, ha, hb]
    exact key hed
  · cases vars with
    | nil => cases hv₀
    | cons v vs => cases hv₀; simp [han.vars]

/-- If the poses are first mentioned in the order of the file, the graph has them in that order. -/
theorem script_order {huber : Option ℝ} {g : PoseGraph} (hg : SoundGraph g) {data : G2oData} (h : DescribesGraph g data) (hc : Covered g)
    (ho : InOrder g) : Graph.variablesOf (scriptFactors huber data) = data.initialPoses.keys := by
  have hm := script_mentions (huber := huber) h
  obtain ⟨vars, hnd, hty, hpo, fs, anchor, v₀, k, mu, hfs, hed, hv₀, hp₀, han⟩ := h
  have hlen : vars.length = g.poses.length := by simpa using congrArg List.length hty
  have hkeys : data.initialPoses.keys = vars := by
    unfold PyDict.keys
    rw [hpo, List.map_fst_zip (by simp [hlen])]
  rw [hkeys] at hm ⊢
  have hn : 0 < g.poses.length := by
    cases hp : g.poses with
    | nil => rw [hp] at hp₀; cases hp₀
    | cons => simp
  obtain ⟨M, hM⟩ : ∃ M, M = (g.edges.flatMap fun e : FileEdge => [e.a, e.b]) ++ [0] := ⟨_, rfl⟩
  rw [← hM] at hm
  have hmem : ∀ i, i ∈ M ↔ i < g.poses.length := by
    intro i
    rw [hM, List.mem_append, List.mem_flatMap, List.mem_singleton]
    constructor
    · rintro (⟨e, he, hi⟩ | rfl)
      · obtain ⟨-, ⟨x, hx⟩, ⟨y, hy⟩⟩ := hg.edges e he
        rcases (by simpa using hi : i = e.a ∨ i = e.b) with rfl | rfl
        · exact (List.getElem?_eq_some_iff.1 hx).1
        · exact (List.getElem?_eq_some_iff.1 hy).1
      · exact hn
    · intro hi
      by_cases h0 : i = 0
      · exact .inr h0
      · obtain ⟨e, he, hi⟩ := hc i hi h0
        exact .inl ⟨e, he, by rcases hi with rfl | rfl <;> simp⟩
  obtain ⟨m, hfk⟩ := firstKeys_range (M := M) (by
    intro pre i post e j hj
    rw [hM] at e
    rcases List.append_eq_append_iff.1 e with ⟨as, e1, e2⟩ | ⟨bs, e1, e2⟩
    · cases as with
      | nil =>
        have : i = 0 := by simpa using (List.cons.inj e2).1.symm
        omega
      | cons a as =>
        have := congrArg List.length e2
        simp at this
    · cases bs with
      | nil =>
        have : i = 0 := by simpa using (List.cons.inj e2).1
        omega
      | cons b bs =>
        obtain ⟨rfl, -⟩ := List.cons.inj e2
        exact ho pre i bs e1 j hj)
  obtain rfl : m = g.poses.length := by
    have key : ∀ i, i < m ↔ i < g.poses.length := by
      intro i
      rw [← hmem, ← List.mem_range, ← hfk, mem_firstKeys]
      simp
    have h1 := key m
    have h2 := key g.poses.length
    omega
  rw [variablesOf_eq, hm, firstKeys_id_map, hfk]
  · apply List.ext_getElem (by simp [hlen])
    intro i h1 h2
    simp [List.getD_eq_getElem?_getD, h2]
  · intro i hi j hj e
    have hi' : i < vars.length := by rw [hlen]; exact (hmem i).1 hi
    have hj' : j < vars.length := by rw [hlen]; exact (hmem j).1 hj
    simp only [List.getD_eq_getElem?_getD, List.getElem?_eq_getElem hi', List.getElem?_eq_getElem hj', Option.getD_some] at e
    exact (hnd.getElem_inj_iff).1 e

end Jaxfg
