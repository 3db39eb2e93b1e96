import Verif.Model.LinSession
import Verif.Spec.Arrays
import Verif.Props.LinClasses
import Verif.Props.LmeFitTotal

/-!
# Linear model objects: the estimator protocol and starting points (C133, C134)
-/

namespace Verif

open Matrix

/-- A starting point with one entry per feature, as an argument of any length. -/
def sized {n : ℕ} (x0 : Option (Vec ℝ n)) : Option (Σ k, Vec ℝ k) := x0.map fun v => ⟨n, v⟩

theorem linFitObject_sized (M : LinModelCfg) (s : LinObject) (P : LinProblem ℝ) (x0 : Option (Vec ℝ P.n)) (warm : Bool) (w : Option (Vec ℝ P.n)) :
    linFitObject M s P (sized x0) warm w =
      match linPrepare M P with
      | .error e => (.error e, s)
      | .ok _ =>
        match linFit M P x0 warm w with
        | .error e => (.error e, { s with logger := .abandoned })
        | .ok r => (.ok (), ⟨some ⟨P.n, r.1⟩, .complete P.n r.2, some P.n⟩) := by
  unfold linFitObject sized
  cases linPrepare M P with
  | error e => rfl
  | ok u =>
    cases warm with
    | false => rfl
    | true =>
      cases x0 with
      | none => rfl
      | some v =>
        simp only [Option.map_some, dif_pos]
        rfl

/-- Predictions of an object with given coefficients. -/
theorem linPredictXY_eq {n : ℕ} (c : Vec ℝ n) (L : LoggerAttr) (o : Option ℕ) (x : RawX) :
    (¬ x.Valid → linPredictXY ⟨some ⟨n, c⟩, L, o⟩ x = .error .valueError) ∧
    (x.Valid → x.n ≠ n → linPredictXY ⟨some ⟨n, c⟩, L, o⟩ x = .error .assertionError) ∧
    (x.Valid → ∀ h : x.n = n, linPredictXY ⟨some ⟨n, c⟩, L, o⟩ x = .ok fun i => ∑ j, x.matrix i j * c (Fin.cast h j)) := by
  refine ⟨fun hv => ?_, fun hv hn => ?_, fun hv hn => ?_⟩
  · simp only [linPredictXY, if_neg hv]
  · simp only [linPredictXY, if_pos hv, linPredict, dif_neg hn]
  · subst hn
    simp only [linPredictXY, if_pos hv, linPredict, dif_pos]
    rfl

/-! ## C133 -/

/-- **C133 (partial)**: invalid arrays raise `ValueError` and change nothing; a fit that raises keeps coefficients and number of features; a fit that returns was given valid arrays, stores the
result of the solver on exactly these numbers with one coefficient per column, and from then on `predict` gives the linear predictor on valid tables with as many columns,
`AssertionError` for another number of columns and `ValueError` for invalid tables.  A new object raises `NotFittedError`.
Missing: the logger is not kept when a fit raises (`C133_logger_lost`), and starting points of the wrong length are not always rejected (`C133_short_start`). -/
theorem C133_protocol_partial (M : LinModelCfg) (s : LinObject) (x : RawX) (y : RawY) (x0 : Option (Vec ℝ x.n)) (warm : Bool) (w : Option (Vec ℝ x.n)) :
    (¬ GoodData x y → linFitXY M s x y (sized x0) warm w = (.error .valueError, s)) ∧
    (∀ e, (linFitXY M s x y (sized x0) warm w).1 = .error e →
      (linFitXY M s x y (sized x0) warm w).2.coef = s.coef ∧ (linFitXY M s x y (sized x0) warm w).2.nFeatures = s.nFeatures) ∧
    ((linFitXY M s x y (sized x0) warm w).1 = .ok () → GoodData x y ∧ ∃ (c : Vec ℝ x.n) (L : Logger (PyVal ℝ x.n)) (b : Vec ℝ x.m),
      (∀ (i : Fin x.m) h, y.e ⟨i, h⟩ 0 = some (b i)) ∧
      linFit M ⟨x.m, x.n, of fun i j => (x.e i j).getD 0, b, 1, none, .none⟩ x0 warm w = .ok (c, L) ∧
      (linFitXY M s x y (sized x0) warm w).2 = ⟨some ⟨x.n, c⟩, .complete x.n L, some x.n⟩ ∧
      ∀ x' : RawX,
        (¬ GoodTable x' → linPredictXY (linFitXY M s x y (sized x0) warm w).2 x' = .error .valueError) ∧
        (GoodTable x' → x'.n ≠ x.n → linPredictXY (linFitXY M s x y (sized x0) warm w).2 x' = .error .assertionError) ∧
        (GoodTable x' → ∀ h : x'.n = x.n, linPredictXY (linFitXY M s x y (sized x0) warm w).2 x' = .ok fun i => ∑ j, (x'.e i j).getD 0 * c (Fin.cast h j))) ∧
    (∀ x' : RawX, linPredictXY LinObject.new x' = .error .notFitted) := by
  simp only [goodData_iff, goodTable_iff]
  refine ⟨fun hv => if_neg hv, fun e he => ?_, fun hok => ?_, fun _ => rfl⟩
  · unfold linFitXY at he ⊢
    by_cases hv : CheckedXY x y
    · rw [if_pos hv] at he ⊢
      have h := linFitObject_sized M s (x.problem (y.vec x.m)) x0 warm w
      change linFitObject M s (x.problem (y.vec x.m)) (sized x0) warm w = _ at h
      rw [h] at he ⊢
      cases hp : linPrepare M (x.problem (y.vec x.m)) with
      | error e => exact ⟨rfl, rfl⟩
      | ok u =>
        rw [hp] at he
        cases hf : linFit M (x.problem (y.vec x.m)) x0 warm w with
        | error e => exact ⟨rfl, rfl⟩
        | ok r => simp only [hf] at he; cases he
    · rw [if_neg hv]
      exact ⟨rfl, rfl⟩
  · unfold linFitXY at hok ⊢
    by_cases hv : CheckedXY x y
    · rw [if_pos hv] at hok ⊢
      have h := linFitObject_sized M s (x.problem (y.vec x.m)) x0 warm w
      change linFitObject M s (x.problem (y.vec x.m)) (sized x0) warm w = _ at h
      rw [h] at hok ⊢
      refine ⟨hv, ?_⟩
      cases hp : linPrepare M (x.problem (y.vec x.m)) with
      | error e => rw [hp] at hok; cases hok
      | ok u =>
        rw [hp] at hok
        cases hf : linFit M (x.problem (y.vec x.m)) x0 warm w with
        | error e => simp only [hf] at hok; cases hok
        | ok r =>
          refine ⟨r.1, r.2, y.vec x.m, fun i h' => ?_, hf, rfl, fun x' => linPredictXY_eq r.1 _ _ x'⟩
          unfold RawY.vec
          rw [dif_pos h']
          exact (Option.some_getD_of_ne_none (hv.2.2.2 ⟨i, h'⟩))
    · rw [if_neg hv] at hok
      cases hok
where
  Option.some_getD_of_ne_none {o : Option ℝ} (h : o ≠ none) : o = some (o.getD 0) := by
    cases o with
    | none => exact absurd rfl h
    | some v => rfl

/-! ## The model without iterations -/

/-- `SimpleLinearModel(max_iter_solver=0)`: a fit returns its starting point. -/
noncomputable def startModel : LinModelCfg := linClass .dummy false { maxIter := 0 }

theorem startModel_prepare (P : LinProblem ℝ) : linPrepare startModel P = .ok () := rfl

theorem startModel_fit (P : LinProblem ℝ) (x0 : Option (Vec ℝ P.n)) (warm : Bool) (w : Option (Vec ℝ P.n)) :
    ∃ L, linFit startModel P x0 warm w = .ok (if warm then x0.getD (fun _ => 1) else fun _ => 1, L) := by
  obtain ⟨x, L, h⟩ := linFit_plain_returns startModel rfl rfl rfl (by simp [startModel, linClass]) (fun _ _ _ => 0) (fun _ _ _ => rfl) (fun _ _ _ _ => ⟨_, rfl⟩) P x0 warm w
  refine ⟨L, ?_⟩
  rw [h]
  unfold linFit at h
  obtain ⟨pr, -, h⟩ := except_bind_ok.1 h
  obtain ⟨r, hr, h⟩ := except_bind_ok.1 h
  obtain ⟨L', -, h⟩ := except_bind_ok.1 h
  cases h
  have := pgdOptimize_no_iterations (cfg := startModel.solver) (le_refl (0 : ℤ)) (show _ = Except.ok ((r.1.1, r.1.2), r.2) from hr)
  rw [this]

/-- A problem with one feature. -/
noncomputable def oneFeature : LinProblem ℝ := ⟨1, 1, of fun _ _ => 1, fun _ => 0, 1, none, .none⟩

/-! ## C133: violations -/

theorem logBlock_shape {k : ℕ} {ks : List String} (hks : ks.Nodup) (hn : "loss" ∉ ks) (v : Vec ℝ k) :
    ∃ L' : Logger (PyVal ℝ k), L'.Good ∧ L'.keys = ks ∧ logBlock (shapeOracle k) dummyRegularizer (Logger.init .tuple ks) v (localsInit v) () = .ok (L', ()) := by
  unfold logBlock
  have hn' : "loss" ∉ (Logger.init .tuple ks : Logger (PyVal ℝ k)).keys := hn
  obtain ⟨L', hL', h1, h2, -⟩ := (Logger.good_init (V := PyVal ℝ k) ks hks).log fun k' => if k' = "loss" then none else localsInit v k'
  by_cases hp : (Logger.init .tuple ks : Logger (PyVal ℝ k)).keys.length > 0
  · refine ⟨L', h1, h2, ?_⟩
    simp only [hn', if_false, hp, if_true]
    exact bind_ok.2 ⟨none, (), rfl, callReg_ok.2 ⟨hL', rfl⟩⟩
  · refine ⟨_, Logger.good_init ks hks, rfl, ?_⟩
    simp only [hn', if_false, hp]
    exact bind_ok.2 ⟨none, (), rfl, rfl⟩

/-- A nonempty starting point of the wrong length makes the solver raise `ValueError`. -/
theorem shapeOptimize_rejects (M : LinModelCfg) (hk : M.loggerKind = .tuple) (hks : M.loggerKeys.Nodup) (hm : 0 < M.maxIter) {k : ℕ} (h0 : 0 < k) (v : Vec ℝ k) :
    shapeOptimize M v = .error .valueError := by
  unfold shapeOptimize
  rw [hk]
  refine exc_bind_error ?_
  have hfar : farApart M.tol none v := Or.inl h0
  split
  · unfold fakeOptimize
    refine pym_bind_error ?_
    exact congrFun (if_pos (⟨hfar, hm⟩ : farApart M.tol none v ∧ 0 < M.maxIter)) ()
  · unfold pgdOptimize
    by_cases hn : "loss" ∈ M.loggerKeys
    · refine pym_bind_error ?_
      unfold logBlock
      have hn' : "loss" ∈ (Logger.init .tuple M.loggerKeys : Logger (PyVal ℝ k)).keys := hn
      simp only [hn', if_true]
      exact pym_bind_error (pym_bind_error (pym_bind_error rfl))
    · obtain ⟨L', -, -, hL⟩ := logBlock_shape hks hn v
      refine (pym_bind_ok hL).trans (pym_bind_error ?_)
      rw [pgdLoop, dif_pos ⟨hfar, by simpa [LinModelCfg.solver] using hm⟩]
      exact pym_bind_error (pym_bind_error rfl)

/-- **C133 is false**: after a successful fit, a fit that raises (a starting point with too many entries) loses the logger of the fitted model. -/
theorem C133_logger_lost : ∃ (M : LinModelCfg) (P : LinProblem ℝ) (x0 : Σ k, Vec ℝ k),
    (linFitObject M .new P none false none).1 = .ok () ∧
    (∃ n L, (linFitObject M .new P none false none).2.logger = .complete n L) ∧
    (linFitObject M (linFitObject M .new P none false none).2 P (some x0) true none).1 = .error .valueError ∧
    (linFitObject M (linFitObject M .new P none false none).2 P (some x0) true none).2.logger = .abandoned := by
  refine ⟨linClass .dummy false {}, oneFeature, ⟨2, fun _ => 1⟩, ?_⟩
  obtain ⟨x, L, h⟩ := linFit_plain_returns (linClass .dummy false {}) rfl rfl rfl (by simp [linClass]) (fun _ _ _ => 0) (fun _ _ _ => rfl) (fun _ _ _ _ => ⟨_, rfl⟩)
    oneFeature none false none
  have h1 : linFitObject (linClass .dummy false {}) .new oneFeature none false none = (.ok (), ⟨some ⟨1, x⟩, .complete 1 L, some 1⟩) := by
    have := linFitObject_sized (linClass .dummy false {}) .new oneFeature none false none
    rw [show linPrepare (linClass .dummy false {}) oneFeature = .ok () from rfl, h] at this
    exact this
  have hs := shapeOptimize_rejects (linClass .dummy false {}) rfl (by simp [linClass]) (by simp [linClass]) two_pos (fun _ => 1)
  have h2 : ∀ s, linFitObject (linClass .dummy false {}) s oneFeature (some ⟨2, fun _ => 1⟩) true none = (.error .valueError, { s with logger := .abandoned }) := by
    intro s
    unfold linFitObject
    rw [show linPrepare (linClass .dummy false {}) oneFeature = .ok () from rfl]
    have hne : (2 : ℕ) ≠ oneFeature.n := by decide
    simp only [dif_neg hne, hs]
  rw [h2, h1]
  exact ⟨rfl, ⟨_, _, rfl⟩, rfl, rfl⟩

/-- **C133**, SR3 models with a prior: `LinearOracleSR3` accepts no prior, `fit_problem` raises before anything is changed - coefficients, the log of an earlier fit and `n_features_in_` stay. -/
theorem C133_sr3_prior (M : LinModelCfg) (el : ℝ) (practical : Bool) (hM : M.sr3 = some (el, practical)) (params : PriorParams ℝ) (hp : M.prior = .gaussian params) (s : LinObject)
    (P : LinProblem ℝ) (x0 : Option (Σ k, Vec ℝ k)) (warm : Bool) (w : Option (Vec ℝ P.n)) : linFitObject M s P x0 warm w = (.error .assertionError, s) := by
  unfold linFitObject linPrepare
  rw [hM, hp]

/-- A case: the simple SR3 model with a Gaussian prior without entries. -/
example (s : LinObject) (P : LinProblem ℝ) : linFitObject { linClass .dummy true {} with prior := .gaussian [] } s P none false none = (.error .assertionError, s) :=
  C133_sr3_prior _ _ _ rfl [] rfl s P none false none

/-- **C133 is false**: with an empty starting point `fit` returns, stores no coefficient although there is a feature, and `predict` then fails on the training table. -/
theorem C133_short_start : ∃ (M : LinModelCfg) (x : RawX) (y : RawY), GoodData x y ∧ x.n = 1 ∧
    (linFitXY M .new x y (some ⟨0, Fin.elim0⟩) true none).1 = .ok () ∧
    (∃ v, (linFitXY M .new x y (some ⟨0, Fin.elim0⟩) true none).2.coef = some ⟨0, v⟩) ∧
    linPredictXY (linFitXY M .new x y (some ⟨0, Fin.elim0⟩) true none).2 x = .error .assertionError := by
  let x : RawX := ⟨1, 1, fun _ _ => some 1⟩
  let y : RawY := ⟨1, none, fun _ _ => some 0⟩
  have hv : x.Valid := ⟨one_pos, one_pos, fun _ _ => by simp [x]⟩
  have hc : CheckedXY x y := ⟨hv, rfl, Or.inl rfl, fun _ => by simp [y]⟩
  have hs : ∃ v L, shapeOptimize (linClass .dummy false {}) (Fin.elim0 : Vec ℝ 0) = .ok (v, L) := by
    obtain ⟨L', hg, hkeys, hL⟩ := logBlock_shape (k := 0) (ks := ["converged"]) (by simp) (by simp) Fin.elim0
    obtain ⟨L1, h1, hg1, -⟩ := hg.add "converged" (.atom (.bool true))
    obtain ⟨L2, h2, -⟩ := hg1.add "iteration" (.atom (.int 0))
    refine ⟨Fin.elim0, L2, ?_⟩
    refine except_bind_ok.2 ⟨((Fin.elim0, L2), ()), ?_, rfl⟩
    change pgdOptimize (shapeOracle 0) dummyRegularizer _ Fin.elim0 (Logger.init .tuple ["converged"]) () = _
    unfold pgdOptimize
    refine (pym_bind_ok hL).trans ?_
    have hl : pgdLoop (shapeOracle 0) dummyRegularizer (linClass .dummy false {}).solver Fin.elim0 Fin.elim0 none 0 L' () = .ok ((Fin.elim0, 0, L'), ()) := by
      rw [pgdLoop, dif_neg]
      · rfl
      · rintro ⟨h | h, -⟩
        · exact absurd h (lt_irrefl 0)
        · norm_num [linClass, LinModelCfg.solver] at h
    refine (pym_bind_ok hl).trans ?_
    refine bind_ok.2 ⟨L1, (), callReg_ok.2 ⟨?_, rfl⟩, bind_ok.2 ⟨L2, (), callReg_ok.2 ⟨h2, rfl⟩, rfl⟩⟩
    rw [← h1]
    norm_num [linClass, LinModelCfg.solver]
  obtain ⟨v, L, hs⟩ := hs
  have hf : linFitXY (linClass .dummy false {}) .new x y (some ⟨0, Fin.elim0⟩) true none = (.ok (), ⟨some ⟨0, v⟩, .complete 0 L, some 1⟩) := by
    unfold linFitXY linFitObject
    rw [if_pos hc, show linPrepare (linClass .dummy false {}) (x.problem (y.vec x.m)) = .ok () from rfl]
    have hne : (0 : ℕ) ≠ (x.problem (y.vec x.m)).n := by decide
    have hno : ¬ ("aic" ∈ (linClass .dummy false {}).loggerKeys ∨ "bic" ∈ (linClass .dummy false {}).loggerKeys) := by simp [linClass]
    simp only [dif_neg hne, hs, if_neg hno]
    rfl
  refine ⟨linClass .dummy false {}, x, y, goodData_iff.2 hc, rfl, ?_⟩
  rw [hf]
  exact ⟨rfl, ⟨v, rfl⟩, (linPredictXY_eq v _ _ x).2.1 hv (by decide)⟩

/-! ## C134 -/

/-- **C134 is false** in general: `warm_start=True` without `initial_parameters` is the same as a cold start, for fitted and unfitted objects alike, so that previous coefficients are never used and
`NotFittedError` is never raised; and `initial_parameters` without `warm_start` are never used. -/
theorem C134_ignored (M : LinModelCfg) (s : LinObject) (P : LinProblem ℝ) (w : Option (Vec ℝ P.n)) (x0 : Option (Σ k, Vec ℝ k)) :
    linFitObject M s P none true w = linFitObject M s P none false w ∧
    linFitObject M s P x0 false w = linFitObject M s P none false w := by
  have h := linFitObject_sized M s P none
  refine ⟨?_, ?_⟩
  · refine (h true w).trans (Eq.trans ?_ (h false w).symm)
    rfl
  · unfold linFitObject
    cases linPrepare M P with
    | error e => rfl
    | ok u => rfl

/-- **C134 is false**, in numbers: with no iterations (a fit returns its start) a second fit with `warm_start=True` returns ones although the coefficient was two, and
`initial_parameters` with `x0 = 2` alone give ones. -/
theorem C134_violated : ∃ (M : LinModelCfg) (P : LinProblem ℝ),
    (linFitObject M .new P (some ⟨1, fun _ => 2⟩) true none).2.coef = some ⟨1, fun _ => 2⟩ ∧
    (linFitObject M (linFitObject M .new P (some ⟨1, fun _ => 2⟩) true none).2 P none true none).2.coef = some ⟨1, fun _ => 1⟩ ∧
    (linFitObject M .new P none true none).1 = .ok () ∧
    (linFitObject M .new P (some ⟨1, fun _ => 2⟩) false none).2.coef = some ⟨1, fun _ => 1⟩ := by
  have key : ∀ (s : LinObject) (x0 : Option (Vec ℝ 1)) (warm : Bool), ∃ L,
      linFitObject startModel s oneFeature (sized x0) warm none = (.ok (), ⟨some ⟨1, if warm then x0.getD (fun _ => 1) else fun _ => 1⟩, .complete 1 L, some 1⟩) := by
    intro s x0 warm
    obtain ⟨L, hL⟩ := startModel_fit oneFeature x0 warm none
    refine ⟨L, ?_⟩
    have := linFitObject_sized startModel s oneFeature x0 warm none
    rw [startModel_prepare, hL] at this
    exact this
  refine ⟨startModel, oneFeature, ?_, ?_, ?_, ?_⟩
  · obtain ⟨L, h⟩ := key .new (some fun _ => 2) true
    exact congrArg (fun r => r.2.coef) h
  · obtain ⟨L, h⟩ := key (linFitObject startModel .new oneFeature (some ⟨1, fun _ => 2⟩) true none).2 none true
    exact congrArg (fun r => r.2.coef) h
  · obtain ⟨L, h⟩ := key .new none true
    exact congrArg (fun r => r.1) h
  · obtain ⟨L, h⟩ := key .new (some fun _ => 2) false
    exact congrArg (fun r => r.2.coef) h

/-- **C134 (partial)**: with `warm_start=True` and `initial_parameters` of the right length the solver starts there; without `warm_start` it starts at ones.  In both cases the coefficients are what the
solver returns for the oracle of the data.
Missing: previous coefficients and `NotFittedError`, and `initial_parameters` without `warm_start` (`C134_ignored`). -/
theorem C134_start_partial (M : LinModelCfg) (hM : M.sr3 = none) (hp : M.prior = .none) (s : LinObject) (P : LinProblem ℝ) (w : Option (Vec ℝ P.n)) (x0 : Vec ℝ P.n) (warm : Bool)
    (h : (linFitObject M s P (some ⟨P.n, x0⟩) warm w).1 = .ok ()) :
    ∃ x L, pgdOptimize (linOracle P.a P.b .nonInformative) (M.regularizer P.n (w.getD fun _ => 1)) ⟨M.tol, M.maxIter, M.stepping, M.step⟩ (if warm then x0 else fun _ => 1)
        (Logger.init M.loggerKind M.loggerKeys) () = .ok ((x, L), ()) ∧
      (linFitObject M s P (some ⟨P.n, x0⟩) warm w).2.coef = some ⟨P.n, x⟩ := by
  have e := linFitObject_sized M s P (some x0) warm w
  change linFitObject M s P (some ⟨P.n, x0⟩) warm w = _ at e
  rw [e] at h ⊢
  have hpr : linPrepare M P = .ok () := by
    unfold linPrepare
    rw [hM, hp]
    rfl
  rw [hpr] at h ⊢
  cases hf : linFit M P (some x0) warm w with
  | error e => simp only [hf] at h; cases h
  | ok r =>
    unfold linFit at hf
    simp only [hM, hp, linOracleInstantiate] at hf
    obtain ⟨pr, hpr, hf⟩ := except_bind_ok.1 hf
    cases hpr
    obtain ⟨r', hr', hf⟩ := except_bind_ok.1 hf
    obtain ⟨L', -, hf⟩ := except_bind_ok.1 hf
    cases hf
    exact ⟨r'.1.1, r'.1.2, hr', rfl⟩

/-! ## Concrete cases -/

/-- The hypotheses of C133 and C134 hold: a table with two rows, one column and a target with one column. -/
example : ∃ (x : RawX) (y : RawY) (M : LinModelCfg), CheckedXY x y ∧ M.sr3 = none ∧ M.prior = .none ∧
    (linFitXY M .new x y (sized (some (fun _ => 3 : Vec ℝ 1))) true none).1 = .ok () ∧
    (linFitXY M .new x y (sized (some (fun _ => 3 : Vec ℝ 1))) true none).2.coef = some ⟨1, fun _ => 3⟩ := by
  let x : RawX := ⟨2, 1, fun i _ => some i.1⟩
  let y : RawY := ⟨2, some 1, fun i _ => some (2 * i.1)⟩
  have hc : CheckedXY x y := ⟨⟨two_pos, one_pos, fun _ _ => by simp [x]⟩, rfl, Or.inr rfl, fun _ => by simp [y]⟩
  refine ⟨x, y, startModel, hc, rfl, rfl, ?_⟩
  obtain ⟨L, hL⟩ := startModel_fit (x.problem (y.vec x.m)) (some fun _ => 3) true none
  have := linFitObject_sized startModel .new (x.problem (y.vec x.m)) (some fun _ => 3) true none
  rw [startModel_prepare, hL] at this
  have h : linFitXY startModel .new x y (sized (some (fun _ => 3 : Vec ℝ 1))) true none = (.ok (), ⟨some ⟨1, fun _ => 3⟩, .complete 1 L, some 1⟩) := by
    unfold linFitXY
    rw [if_pos hc]
    exact this
  rw [h]
  exact ⟨rfl, rfl⟩

end Verif
