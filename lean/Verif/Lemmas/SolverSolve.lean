/- Lemmas about whole `solve` calls, for every scalar type. -/
import Verif.Lemmas.SolverOrder

namespace Jaxfg
open Spec
variable {S : Type} [Scal S] {σ : Type}

theorem baseSolve_some {C : Ty → VarClass S} {g : GraphOps S} {verbose : Bool} {base : σ → State S} {init : Assign S → Py σ}
    {step : σ → Py (σ × List (Msg S))} {fuel : Nat} {a out : Assign S} {log : List (Msg S)} :
    baseSolve C g verbose base init step fuel a = .ok (some (out, log)) ↔
      ∃ b st st' l, a.updateStorageLayout C g.layout = .ok b ∧ init b = .ok st ∧
        whileLoop (fun s => (base s).done) step fuel st = .ok (some (st', l)) ∧
        (base st').assignments.updateStorageLayout C a.layout = .ok out ∧
        log = l ++ hcbPrint verbose (.terminated (base st').iterations (base st').cost) := by
  unfold baseSolve
  simp only [py_bind_eq_ok]
  constructor
  · rintro ⟨b, h1, st, h2, r, h3, h4⟩
    cases r with
    | none => simp at h4
    | some p =>
      obtain ⟨st', l⟩ := p
      simp only [py_bind_eq_ok, py_return_eq_ok, Option.some.injEq, Prod.mk.injEq] at h4
      obtain ⟨o, h5, rfl, rfl⟩ := h4
      exact ⟨b, st, st', l, h1, h2, h3, h5, rfl⟩
  · rintro ⟨b, st, st', l, h1, h2, h3, h4, rfl⟩
    refine ⟨b, h1, st, h2, some (st', l), h3, ?_⟩
    simp [h4]

omit [Scal S] in
theorem initState_fresh {g : GraphOps S} {b : Assign S} {st : State S} (h : initState g b = .ok st) :
    st.done = false ∧ st.iterations = 0 := by
  obtain ⟨c, r, -, rfl⟩ := initState_ok.1 h
  exact ⟨rfl, rfl⟩

omit [Scal S] in
theorem lmInit_ok {g : GraphOps S} {s : LevenbergMarquardt S} {b : Assign S} {st : LMState S} :
    s.init g b = .ok st ↔ initState g b = .ok st.toState ∧ st.lambd = s.lambdaInitial := by
  unfold LevenbergMarquardt.init
  simp only [py_bind_eq_ok, py_return_eq_ok]
  constructor
  · rintro ⟨t, h, rfl⟩; exact ⟨h, rfl⟩
  · rintro ⟨h1, h2⟩
    refine ⟨_, h1, ?_⟩
    cases st
    simp_all

omit [Scal S] in
theorem doglegInit_ok {g : GraphOps S} {s : Dogleg S} {b : Assign S} {st : DoglegState S} :
    s.init g b = .ok st ↔ initState g b = .ok st.toState ∧ st.radius = s.radiusInitial := by
  unfold Dogleg.init
  simp only [py_bind_eq_ok, py_return_eq_ok]
  constructor
  · rintro ⟨t, h, rfl⟩; exact ⟨h, rfl⟩
  · rintro ⟨h1, h2⟩
    refine ⟨_, h1, ?_⟩
    cases st
    simp_all

/-- Steps keep the layout and the size of the storage. -/
def KeepsLayout (base : σ → State S) (step : σ → Py (σ × List (Msg S))) : Prop :=
  ∀ s s' log, step s = .ok (s', log) → (base s').assignments.layout = (base s).assignments.layout ∧
    (base s').assignments.storage.length = (base s).assignments.storage.length

theorem gn_keeps {C : Ty → VarClass S} {g : GraphOps S} (s : GaussNewton S) : KeepsLayout id (s.step C g) := by
  intro p p' log h
  obtain ⟨A, ATr, delta, b, c, r, conv, -, -, -, hb, -, -, rfl, -⟩ := gnStep_ok.1 h
  exact manifoldRetract_shape hb

theorem fixed_keeps {C : Ty → VarClass S} {g : GraphOps S} (s : FixedIteration S) : KeepsLayout id (s.step C g) := by
  intro p p' log h
  obtain ⟨A, ATr, delta, b, c, r, -, -, -, hb, -, rfl, -⟩ := fixedStep_ok.1 h
  exact manifoldRetract_shape hb

theorem lm_keeps {C : Ty → VarClass S} {g : GraphOps S} (s : LevenbergMarquardt S) : KeepsLayout LMState.toState (s.step C g) := by
  intro p p' log h
  obtain ⟨A, ATb, delta, b, c, r, q, conv, -, -, -, hb, -, -, -, rfl, -⟩ := lmStep_ok.1 h
  refine ⟨rfl, ?_⟩
  unfold lmNext
  have := (manifoldRetract_shape hb).2
  simp only
  split
  · exact this
  · rfl

theorem dogleg_keeps {C : Ty → VarClass S} {g : GraphOps S} (s : Dogleg S) : KeepsLayout DoglegState.toState (s.step C g) := by
  intro p p' log h
  obtain ⟨A, ATb, gn, delta, b, c, r, q, conv, -, -, -, -, hb, -, -, -, rfl, -⟩ := doglegSolverStep_ok.1 h
  refine ⟨rfl, ?_⟩
  unfold doglegNext
  have := (manifoldRetract_shape hb).2
  simp only
  split
  · exact this
  · rfl

omit [Scal S] in
theorem keeps_runs {base : σ → State S} {step : σ → Py (σ × List (Msg S))} (hk : KeepsLayout base step) {done : σ → Bool} {k : Nat}
    {s t : σ} {log : List (Msg S)} (h : Runs done step k s t log) :
    (base t).assignments.layout = (base s).assignments.layout ∧
      (base t).assignments.storage.length = (base s).assignments.storage.length := by
  induction h with
  | refl => exact ⟨rfl, rfl⟩
  | step h1 h2 h3 ih =>
    have := hk _ _ _ h3
    exact ⟨this.1.trans ih.1, this.2.trans ih.2⟩

theorem baseSolve_layout {C : Ty → VarClass S} {g : GraphOps S} {verbose : Bool} {base : σ → State S} {init : Assign S → Py σ}
    {step : σ → Py (σ × List (Msg S))} (hk : KeepsLayout base step) (hi : ∀ b st, init b = .ok st → (base st).assignments = b)
    {ws : List Var} (hw : ws.Nodup) (hg : g.layout = Layout.make C ws false) {vars : List Var} {a : Assign S}
    (ha : IsAssignmentOf C vars a) {fuel : Nat} {out : Assign S} {log : List (Msg S)}
    (h : baseSolve C g verbose base init step fuel a = .ok (some (out, log))) :
    out.layout = a.layout ∧ IsAssignmentOf C vars out := by
  obtain ⟨b, st, st', l, h1, h2, h3, h4, -⟩ := baseSolve_some.1 h
  obtain ⟨k, -, hr, -⟩ := runs_of_whileLoop h3
  obtain ⟨hl, hlen⟩ := keeps_runs hk hr
  rw [hi _ _ h2] at hl hlen
  suffices hout : out.layout = a.layout ∧ out.storage.length = a.storage.length by
    refine ⟨hout.1, ha.1, ?_, ?_⟩
    · rw [hout.1]; exact ha.2.1
    · rw [hout.1, hout.2]; exact ha.2.2
  -- the shape after a conversion
  have shape : ∀ {x y : Assign S} {tgt : Layout}, x.updateStorageLayout C tgt = .ok y →
      (x.layout.eq tgt = true ∧ y = x) ∨ (x.layout.eq tgt = false ∧ y.layout = tgt ∧ y.storage.length = x.storage.length) := by
    intro x y tgt h
    unfold Assign.updateStorageLayout at h
    by_cases he : x.layout.eq tgt = true
    · simp [he] at h; exact .inl ⟨he, h.symm⟩
    · right
      simp only [he, Bool.false_eq_true, if_false, py_bind_eq_ok] at h
      obtain ⟨_, _, _, _, _, _, idx, _, _, h5, h6⟩ := h
      simp at h6
      subst h6
      refine ⟨by simpa using he, rfl, ?_⟩
      unfold pyAssert at h5
      split at h5
      · rename_i hh; simpa using hh
      · cases h5
  rcases shape h1 with ⟨he, rfl⟩ | ⟨hne, hbl, hbs⟩
  · rcases shape h4 with ⟨-, rfl⟩ | ⟨-, ho, hos⟩
    · exact ⟨hl, hlen⟩
    · exact ⟨ho, hos.trans hlen⟩
  · rcases shape h4 with ⟨he, rfl⟩ | ⟨-, ho, hos⟩
    · exfalso
      rw [hl, hbl, hg, ha.2.1] at he
      rw [ha.2.1, hg] at hne
      rw [layoutEq_symm C hw ha.1 he] at hne
      cases hne
    · exact ⟨ho, hos.trans (hlen.trans hbs)⟩

theorem fixedSolve_some {C : Ty → VarClass S} {g : GraphOps S} {s : FixedIteration S} {fuel : Nat} {a out : Assign S}
    {log : List (Msg S)} :
    s.solve C g fuel a = .ok (some (out, log)) ↔ ∃ st st' l, initState g a = .ok st ∧
      (if s.unroll then (forLoop (s.step C g) s.iterations.toNat st).map some
        else whileLoop (fun s => s.done) (s.step C g) fuel st) = .ok (some (st', l)) ∧ out = st'.assignments ∧
      log = l ++ hcbPrint s.verbose (.terminated st'.iterations st'.cost) := by
  unfold FixedIteration.solve
  simp only [py_bind_eq_ok]
  constructor
  · rintro ⟨x, h0, st, h1, r, h2, h3⟩
    cases r with
    | none => simp at h3
    | some p =>
      obtain ⟨st', l⟩ := p
      simp at h3
      exact ⟨st, st', l, h1, h2, h3.1.symm, h3.2.symm⟩
  · rintro ⟨st, st', l, h1, h2, rfl, rfl⟩
    obtain ⟨c, r, hc, -⟩ := initState_ok.1 h1
    exact ⟨(c, r), hc, st, h1, some (st', l), h2, rfl⟩

/-- Both loops of the fixed-iteration solver are executions. -/
theorem fixedLoop_runs {C : Ty → VarClass S} {g : GraphOps S} {s : FixedIteration S} {fuel : Nat} {st st' : State S}
    {l : List (Msg S)}
    (h : (if s.unroll then (forLoop (s.step C g) s.iterations.toNat st).map some
        else whileLoop (fun s => s.done) (s.step C g) fuel st) = .ok (some (st', l))) :
    ∃ (done : State S → Bool) (k : Nat), Runs done (s.step C g) k st st' l := by
  cases hu : s.unroll with
  | true =>
    rw [hu, if_pos rfl] at h
    cases hf : forLoop (s.step C g) s.iterations.toNat st with
    | error e => rw [hf] at h; cases h
    | ok p =>
      rw [hf] at h
      have hp : p = (st', l) := by simpa [Except.map] using h
      subst hp
      exact ⟨_, _, runs_of_forLoop.1 hf⟩
  | false =>
    rw [hu, if_neg (by simp)] at h
    obtain ⟨k, -, hr, -⟩ := runs_of_whileLoop h
    exact ⟨_, k, hr⟩

/-- Values determine blocks. -/
theorem rep_of_same_values {α : Type} {C : Ty → VarClass α} (hC : ∀ t, WellShaped (C t).default) {vars ws : List Var}
    {f h : Var → List α} {a b : Assign α} (ha : Rep C vars false f a) (hb : Rep C ws false h b) (hs : ∀ v, v ∈ vars ↔ v ∈ ws)
    (hv : ∀ v ∈ vars, a.getValue C v = b.getValue C v) : Rep C ws false f b := by
  refine hb.congr fun v hm => ?_
  have h1 := hv v ((hs v).2 hm)
  rw [ha.getValue_ok ((hs v).2 hm), hb.getValue_ok hm] at h1
  have h2 : unravel (C v.ty).default (f v) = unravel (C v.ty).default (h v) := by injection h1
  have h3 := congrArg Value.flatten h2
  rw [flatten_unravel (hC _) (ha.len v ((hs v).2 hm)), flatten_unravel (hC _) (hb.len v hm)] at h3
  exact h3.symm

omit [Scal S] in
/-- The loop looks at the state only. -/
theorem forget_whileLoop {done : σ → Bool} {step step' : σ → Py (σ × List (Msg S))}
    (h : ∀ s, (step s).map Prod.fst = (step' s).map Prod.fst) :
    ∀ (fuel : Nat) (s : σ), (whileLoop done step fuel s).map (Option.map Prod.fst) =
      (whileLoop done step' fuel s).map (Option.map Prod.fst) := by
  intro fuel
  induction fuel with
  | zero => intro s; rfl
  | succ fuel ih =>
    intro s
    unfold whileLoop
    by_cases hd : done s = true
    · simp [hd]
    · rw [if_neg hd, if_neg hd]
      have hs := h s
      cases h1 : step s with
      | error e =>
        cases h2 : step' s with
        | error e' => rw [h1, h2] at hs; simpa [Except.map] using hs
        | ok p => rw [h1, h2] at hs; cases hs
      | ok p =>
        cases h2 : step' s with
        | error e' => rw [h1, h2] at hs; cases hs
        | ok q =>
          rw [h1, h2] at hs
          have hpq : p.1 = q.1 := by simpa [Except.map] using hs
          obtain ⟨p1, p2⟩ := p
          obtain ⟨q1, q2⟩ := q
          simp only at hpq
          subst hpq
          simp only [py_bind_ok]
          have hi := ih p1
          cases h3 : whileLoop done step fuel p1 with
          | error e =>
            cases h4 : whileLoop done step' fuel p1 with
            | error e' => rw [h3, h4] at hi; simpa [Except.map] using hi
            | ok r => rw [h3, h4] at hi; cases hi
          | ok r =>
            cases h4 : whileLoop done step' fuel p1 with
            | error e' => rw [h3, h4] at hi; cases hi
            | ok r' =>
              rw [h3, h4] at hi
              simp only [Except.map, Except.ok.injEq] at hi
              cases r <;> cases r' <;> simp_all [Except.map]

omit [Scal S] in
theorem forget_forLoop {step step' : σ → Py (σ × List (Msg S))}
    (h : ∀ s, (step s).map Prod.fst = (step' s).map Prod.fst) :
    ∀ (n : Nat) (s : σ), (forLoop step n s).map Prod.fst = (forLoop step' n s).map Prod.fst := by
  intro n
  induction n with
  | zero => intro s; rfl
  | succ n ih =>
    intro s
    unfold forLoop
    have hs := h s
    cases h1 : step s with
    | error e =>
      cases h2 : step' s with
      | error e' => rw [h1, h2] at hs; simpa [Except.map] using hs
      | ok p => rw [h1, h2] at hs; cases hs
    | ok p =>
      cases h2 : step' s with
      | error e' => rw [h1, h2] at hs; cases hs
      | ok q =>
        rw [h1, h2] at hs
        have hpq : p.1 = q.1 := by simpa [Except.map] using hs
        obtain ⟨p1, p2⟩ := p
        obtain ⟨q1, q2⟩ := q
        simp only at hpq
        subst hpq
        simp only [py_bind_ok]
        have hi := ih p1
        cases h3 : forLoop step n p1 with
        | error e =>
          cases h4 : forLoop step' n p1 with
          | error e' => rw [h3, h4] at hi; simpa [Except.map] using hi
          | ok r => rw [h3, h4] at hi; cases hi
        | ok r =>
          cases h4 : forLoop step' n p1 with
          | error e' => rw [h3, h4] at hi; cases hi
          | ok r' =>
            rw [h3, h4] at hi
            simp only [Except.map, Except.ok.injEq] at hi
            obtain ⟨r1, r2⟩ := r
            obtain ⟨r1', r2'⟩ := r'
            simp_all [Except.map]

/-- If two computations that return states with logs agree after forgetting logs. -/
theorem forget_eq {α β : Type} {x y : Py (α × β)} (h1 : ∀ s, (∃ l, x = .ok (s, l)) ↔ ∃ l, y = .ok (s, l))
    (h2 : ∀ e, x = .error e ↔ y = .error e) : x.map Prod.fst = y.map Prod.fst := by
  cases x with
  | error e => rw [(h2 e).1 rfl]
  | ok p =>
    obtain ⟨s, l⟩ := p
    obtain ⟨l', h⟩ := (h1 s).1 ⟨l, rfl⟩
    rw [h]
    rfl

/-! ### Printing -/

/-- The step prints one line with the number of the iteration if `verbose`, and nothing otherwise. -/
def Logs (base : σ → State S) (step : σ → Py (σ × List (Msg S))) (verbose : Bool) : Prop :=
  ∀ s s' log, step s = .ok (s', log) → ∃ m : Msg S, isIterationLine m = true ∧ lineNumber m = (base s).iterations ∧
    log = hcbPrint verbose m

omit [Scal S] in
theorem logs_runs {base : σ → State S} {step : σ → Py (σ × List (Msg S))} {verbose : Bool} (hl : Logs base step verbose)
    (hc : ∀ {s s' log}, step s = .ok (s', log) → (base s').iterations = (base s).iterations + 1) {done : σ → Bool} {k : Nat} {s t : σ}
    {log : List (Msg S)} (h : Runs done step k s t log) (h0 : (base s).iterations = 0) :
    (base t).iterations = k ∧ (verbose = true → log.map lineNumber = List.range k ∧ ∀ m ∈ log, isIterationLine m = true) ∧
      (verbose = false → log = []) := by
  induction h with
  | refl => exact ⟨h0, fun _ => ⟨rfl, by simp⟩, fun _ => rfl⟩
  | @step k s t u log l h1 h2 h3 ih =>
    obtain ⟨i1, i2, i3⟩ := ih h0
    obtain ⟨m, m1, m2, rfl⟩ := hl _ _ _ h3
    refine ⟨by rw [hc h3, i1], fun hv => ?_, fun hv => ?_⟩
    · subst hv
      obtain ⟨j1, j2⟩ := i2 rfl
      constructor
      · rw [List.map_append, j1, List.range_succ]
        simp [hcbPrint, m2, i1]
      · intro x hx
        rcases List.mem_append.1 hx with hx | hx
        · exact j2 x hx
        · simp [hcbPrint] at hx; rw [hx]; exact m1
    · subst hv
      rw [i3 rfl]; rfl

theorem gn_logs {C : Ty → VarClass S} {g : GraphOps S} (s : GaussNewton S) : Logs id (s.step C g) s.verbose := by
  intro p p' log h
  obtain ⟨A, ATr, delta, b, c, r, conv, -, -, -, -, -, -, -, rfl⟩ := gnStep_ok.1 h
  exact ⟨_, rfl, rfl, rfl⟩

theorem fixed_logs {C : Ty → VarClass S} {g : GraphOps S} (s : FixedIteration S) : Logs id (s.step C g) s.verbose := by
  intro p p' log h
  obtain ⟨A, ATr, delta, b, c, r, -, -, -, -, -, -, rfl⟩ := fixedStep_ok.1 h
  exact ⟨_, rfl, rfl, rfl⟩

theorem lm_logs {C : Ty → VarClass S} {g : GraphOps S} (s : LevenbergMarquardt S) : Logs LMState.toState (s.step C g) s.verbose := by
  intro p p' log h
  obtain ⟨A, ATb, delta, b, c, r, q, conv, -, -, -, -, -, -, -, -, rfl⟩ := lmStep_ok.1 h
  exact ⟨_, rfl, rfl, rfl⟩

theorem dogleg_logs {C : Ty → VarClass S} {g : GraphOps S} (s : Dogleg S) : Logs DoglegState.toState (s.step C g) s.verbose := by
  intro p p' log h
  obtain ⟨A, ATb, gn, delta, b, c, r, q, conv, -, -, -, -, -, -, -, -, -, rfl⟩ := doglegSolverStep_ok.1 h
  exact ⟨_, rfl, rfl, rfl⟩

theorem gn_verbose {C : Ty → VarClass S} {g : GraphOps S} (s : GaussNewton S) (v : Bool) (p : State S) :
    (({ s with verbose := v } : GaussNewton S).step C g p).map Prod.fst = (s.step C g p).map Prod.fst := by
  simp only [GaussNewton.step]
  cases g.jacobian p.assignments p.residual with
  | error e => rfl
  | ok A =>
    simp only [py_bind_ok]
    cases A.T.matmul p.residual with
    | error e => rfl
    | ok ATr =>
      simp only [py_bind_ok]
      cases s.linear A (ATr.map fun x => -x) (Scal.lit 0) p.iterations with
      | error e => rfl
      | ok delta =>
        simp only [py_bind_ok]
        cases p.assignments.manifoldRetract C ⟨delta, g.localLayout⟩ with
        | error e => rfl
        | ok b =>
          simp only [py_bind_ok]
          cases g.computeCost b with
          | error e => rfl
          | ok cr =>
            simp only [py_bind_ok]
            cases s.converged C p cr.1 ⟨delta, g.localLayout⟩ (ATr.map fun x => -x) <;> rfl

theorem fixed_verbose {C : Ty → VarClass S} {g : GraphOps S} (s : FixedIteration S) (v : Bool) (p : State S) :
    (({ s with verbose := v } : FixedIteration S).step C g p).map Prod.fst = (s.step C g p).map Prod.fst := by
  simp only [FixedIteration.step]
  cases g.jacobian p.assignments p.residual with
  | error e => rfl
  | ok A =>
    simp only [py_bind_ok]
    cases A.T.matmul p.residual with
    | error e => rfl
    | ok ATr =>
      simp only [py_bind_ok]
      cases s.linear A (ATr.map fun x => -x) (Scal.lit 0) p.iterations with
      | error e => rfl
      | ok delta =>
        simp only [py_bind_ok]
        cases p.assignments.manifoldRetract C ⟨delta, g.localLayout⟩ with
        | error e => rfl
        | ok b =>
          simp only [py_bind_ok]
          cases g.computeCost b <;> rfl

theorem lm_verbose {C : Ty → VarClass S} {g : GraphOps S} (s : LevenbergMarquardt S) (v : Bool) (p : LMState S) :
    (({ s with verbose := v } : LevenbergMarquardt S).step C g p).map Prod.fst = (s.step C g p).map Prod.fst := by
  simp only [LevenbergMarquardt.step]
  cases g.jacobian p.assignments p.residual with
  | error e => rfl
  | ok A =>
    simp only [py_bind_ok]
    cases A.T.matmul (p.residual.map fun x => -x) with
    | error e => rfl
    | ok ATb =>
      simp only [py_bind_ok]
      cases s.linear A ATb p.lambd p.iterations with
      | error e => rfl
      | ok delta =>
        simp only [py_bind_ok]
        cases p.assignments.manifoldRetract C ⟨delta, g.localLayout⟩ with
        | error e => rfl
        | ok b =>
          simp only [py_bind_ok]
          cases g.computeCost b with
          | error e => rfl
          | ok cr =>
            simp only [py_bind_ok]
            cases stepQuality A cr.1 p.toState delta with
            | error e => rfl
            | ok q =>
              simp only [py_bind_ok]
              cases s.converged C p.toState cr.1 ⟨delta, g.localLayout⟩ ATb <;> rfl

theorem dogleg_verbose {C : Ty → VarClass S} {g : GraphOps S} (s : Dogleg S) (v : Bool) (p : DoglegState S) :
    (({ s with verbose := v } : Dogleg S).step C g p).map Prod.fst = (s.step C g p).map Prod.fst := by
  simp only [Dogleg.step]
  cases g.jacobian p.assignments p.residual with
  | error e => rfl
  | ok A =>
    simp only [py_bind_ok]
    cases A.T.matmul (p.residual.map fun x => -x) with
    | error e => rfl
    | ok ATb =>
      simp only [py_bind_ok]
      cases s.linear A ATb (Scal.lit 0) p.iterations with
      | error e => rfl
      | ok gn =>
        simp only [py_bind_ok]
        cases doglegStep A ATb gn p.radius with
        | error e => rfl
        | ok delta =>
          simp only [py_bind_ok]
          cases p.assignments.manifoldRetract C ⟨delta, g.localLayout⟩ with
          | error e => rfl
          | ok b =>
            simp only [py_bind_ok]
            cases g.computeCost b with
            | error e => rfl
            | ok cr =>
              simp only [py_bind_ok]
              cases stepQuality A cr.1 p.toState delta with
              | error e => rfl
              | ok q =>
                simp only [py_bind_ok]
                cases s.converged C p.toState cr.1 ⟨delta, g.localLayout⟩ ATb <;> rfl

/-- `solve` forgets what was printed. -/
theorem baseSolve_verbose {C : Ty → VarClass S} {g : GraphOps S} {v v' : Bool} {base : σ → State S} {init : Assign S → Py σ}
    {step step' : σ → Py (σ × List (Msg S))} (h : ∀ s, (step s).map Prod.fst = (step' s).map Prod.fst) (fuel : Nat) (a : Assign S) :
    (baseSolve C g v base init step fuel a).map (Option.map Prod.fst) =
      (baseSolve C g v' base init step' fuel a).map (Option.map Prod.fst) := by
  unfold baseSolve
  cases a.updateStorageLayout C g.layout with
  | error e => rfl
  | ok b =>
    simp only [py_bind_ok]
    cases init b with
    | error e => rfl
    | ok st =>
      simp only [py_bind_ok]
      have hw := forget_whileLoop (done := fun s => (base s).done) h fuel st
      cases h1 : whileLoop (fun s => (base s).done) step fuel st with
      | error e =>
        cases h2 : whileLoop (fun s => (base s).done) step' fuel st with
        | error e' => rw [h1, h2] at hw; simpa [Except.map] using hw
        | ok r => rw [h1, h2] at hw; cases hw
      | ok r =>
        cases h2 : whileLoop (fun s => (base s).done) step' fuel st with
        | error e' => rw [h1, h2] at hw; cases hw
        | ok r' =>
          rw [h1, h2] at hw
          simp only [Except.map, Except.ok.injEq] at hw
          cases r with
          | none => cases r' with
            | none => rfl
            | some q => cases hw
          | some q => cases r' with
            | none => cases hw
            | some q' =>
              obtain ⟨q1, q2⟩ := q
              obtain ⟨q1', q2'⟩ := q'
              simp only [Option.map_some, Option.some.injEq] at hw
              subst hw
              simp only [py_bind_ok]
              cases (base q1).assignments.updateStorageLayout C a.layout <;> rfl

/-- The two loops of the fixed-iteration solver agree. -/
theorem whileLoop_eq_forLoop {C : Ty → VarClass S} {g : GraphOps S} (s : FixedIteration S) :
    ∀ (n fuel : Nat) (st : State S), st.done = false → (st.iterations : Int) + (n + 1) = s.iterations → n + 1 ≤ fuel →
      whileLoop (fun s => s.done) (s.step C g) fuel st = (forLoop (s.step C g) (n + 1) st).map some := by
  intro n
  induction n with
  | zero =>
    intro fuel st hd hi hf
    obtain ⟨f, rfl⟩ : ∃ f, fuel = f + 1 := ⟨fuel - 1, by omega⟩
    rw [whileLoop, if_neg (by simp [hd]), forLoop]
    cases h1 : s.step C g st with
    | error e => rfl
    | ok p =>
      obtain ⟨st', l⟩ := p
      have hdone := ((fixed_counted s).next h1).2 (by simp only [id]; omega)
      simp only [id] at hdone
      simp [forLoop, whileLoop_done (done := fun s : State S => s.done) hdone, Except.map]
  | succ n ih =>
    intro fuel st hd hi hf
    obtain ⟨f, rfl⟩ : ∃ f, fuel = f + 1 := ⟨fuel - 1, by omega⟩
    rw [whileLoop, if_neg (by simp [hd]), forLoop]
    cases h1 : s.step C g st with
    | error e => rfl
    | ok p =>
      obtain ⟨st', l⟩ := p
      obtain ⟨A, ATr, delta, b, c, r, -, -, -, -, -, hst, -⟩ := fixedStep_ok.1 h1
      have hd' : st'.done = false := by rw [hst]; simp; omega
      have hi' : (st'.iterations : Int) + (n + 1) = s.iterations := by rw [hst]; simp; omega
      simp only [py_bind_ok]
      rw [ih f st' hd' hi' (by omega)]
      cases forLoop (s.step C g) (n + 1) st' <;> rfl

end Jaxfg
