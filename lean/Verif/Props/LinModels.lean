import Verif.Props.Sr3Solver

/-!
# Linear models: C39, C40, C42
-/

namespace Verif

open Matrix

variable {m n : ℕ}

/-- The information criteria are only added under keys that are there: no exception. -/
theorem logIC_ok {n : ℕ} (L : Logger (PyVal ℝ n)) (a b : ℝ) : ∃ L', logIC L a b = .ok L' := by
  unfold logIC Logger.add
  by_cases h1 : "aic" ∈ L.keys
  · by_cases h2 : "bic" ∈ L.keys <;> simp [h1, h2, bind, Except.bind]
  · by_cases h2 : "bic" ∈ L.keys <;> simp [h1, h2, bind, Except.bind]

theorem practicalLoop_output (A : Matrix (Fin m) (Fin n) ℝ) (b : Vec ℝ m) (c : Matrix (Fin n) (Fin n) ℝ) (lam : ℝ) (R : Regularizer ℝ n)
    (tol : ℝ) (maxIter : ℤ) (x : Vec ℝ n) (xprev : Option (Vec ℝ n)) (it : ℕ) (xf : Vec ℝ n)
    (h : practicalLoop A b c lam R tol maxIter x xprev it = .ok xf) : xf = x ∨ ∃ y step, R.prox y step = .ok xf := by
  induction x, xprev, it using practicalLoop.induct (tol := tol) (maxIter := maxIter) with
  | case1 x xprev it hg ih =>
    rw [practicalLoop, dif_pos hg] at h
    obtain ⟨x', hx', h⟩ := except_bind_ok.1 h
    rcases ih x' h with rfl | h'
    · exact .inr ⟨_, _, hx'⟩
    · exact .inr h'
  | case2 x xprev it hg =>
    rw [practicalLoop, dif_neg hg] at h
    cases h
    exact .inl rfl

/-- Whatever the model (plain, SR3, practical SR3), the fitted coefficients are an output of the prox of its regularizer. -/
theorem linFit_prox (M : LinModelCfg) (P : LinProblem ℝ) (x0 : Option (Vec ℝ P.n)) (warm : Bool) (w : Option (Vec ℝ P.n)) (x : Vec ℝ P.n)
    (L : Logger (PyVal ℝ P.n)) (h : linFit M P x0 warm w = .ok (x, L)) (hn : 0 < P.n) (hmax : 1 ≤ M.maxIter) :
    ∃ y step, (M.regularizer P.n (w.getD fun _ => 1)).prox y step = .ok x := by
  unfold linFit at h
  cases hs : M.sr3 with
  | none =>
    simp only [hs] at h
    obtain ⟨pr, -, h⟩ := except_bind_ok.1 h
    obtain ⟨⟨⟨y, Ly⟩, sy⟩, hy, h⟩ := except_bind_ok.1 h
    obtain ⟨Lz, -, h⟩ := except_bind_ok.1 h
    cases h
    obtain ⟨y, step, hp, -⟩ := C18_result_is_prox_output _ _ M.solver _ _ _ _ _ _ hy hn hmax
    exact ⟨y, step, hp⟩
  | some e =>
    obtain ⟨el, practical⟩ := e
    simp only [hs] at h
    cases hpr : M.prior with
    | gaussian p => simp only [hpr] at h; cases h
    | none =>
      simp only [hpr] at h
      by_cases hd : (sr3H P.a P.c el).det = 0
      · rw [if_pos hd] at h; cases h
      rw [if_neg hd] at h
      cases practical with
      | false =>
        simp only [Bool.false_eq_true, if_false] at h
        obtain ⟨⟨⟨y, Ly⟩, sy⟩, hy, h⟩ := except_bind_ok.1 h
        obtain ⟨Lz, -, h⟩ := except_bind_ok.1 h
        cases h
        obtain ⟨y, step, hp, -⟩ := C18_result_is_prox_output _ _ M.solver _ _ _ _ _ _ hy hn hmax
        exact ⟨y, step, hp⟩
      | true =>
        simp only [if_true] at h
        obtain ⟨⟨⟨y, Ly⟩, sy⟩, hy, h⟩ := except_bind_ok.1 h
        obtain ⟨Lz, -, h⟩ := except_bind_ok.1 h
        cases h
        unfold fakeOptimize at hy
        obtain ⟨z, s1, hz, hy⟩ := bind_ok.1 hy
        obtain ⟨L1, s2, -, hy⟩ := bind_ok.1 hy
        obtain ⟨L2, s3, -, hy⟩ := bind_ok.1 hy
        obtain ⟨he, -⟩ := pure_ok.1 hy
        cases he
        have h2 := (callReg_ok.1 hz).1
        unfold findOptimalParameters at h2
        by_cases hel : el = 0
        · rw [if_pos hel] at h2; cases h2
        rw [if_neg hel] at h2
        rw [practicalLoop, dif_pos ⟨Or.inl hn, by simp; omega⟩] at h2
        obtain ⟨x', hx', h2⟩ := except_bind_ok.1 h2
        rcases practicalLoop_output _ _ _ _ _ _ _ _ _ _ _ h2 with rfl | h'
        · exact ⟨_, _, hx'⟩
        · exact h'

/-! ## C39 -/

/-- **C39**, sparsity: the coefficients fitted by an L0 model (plain, SR3 or practical SR3) with `nnz ≥ 0` and at least one allowed iteration have at most `nnz` nonzeros. With explicit
regularization weights this needs at most `nnz` coordinates excluded from regularization. -/
theorem C39_l0_budget (M : LinModelCfg) (nnz : ℤ) (hnnz : 0 ≤ nnz) (hmax : 1 ≤ M.maxIter)
    (hreg : ∀ n w, ∃ asAll as, M.regularizer n w = l0Regularizer (some nnz) asAll (some ⟨w, as⟩))
    (P : LinProblem ℝ) (x0 : Option (Vec ℝ P.n)) (warm : Bool) (w : Option (Vec ℝ P.n)) (x : Vec ℝ P.n) (L : Logger (PyVal ℝ P.n))
    (hw : ∀ v, w = some v → (Set.ncard {i | v i = 0} : ℤ) ≤ nnz)
    (h : linFit M P x0 warm w = .ok (x, L)) : (numNonzero x : ℤ) ≤ nnz := by
  rcases Nat.eq_zero_or_pos P.n with hn | hn
  · have : numNonzero x = 0 := by
      unfold numNonzero
      have : ∀ i : Fin P.n, False := fun i => by have := i.2; omega
      rw [Set.ncard_eq_zero]
      ext i; exact (this i).elim
    rw [this]; exact_mod_cast hnnz
  · obtain ⟨y, step, hp⟩ := linFit_prox M P x0 warm w x L h hn hmax
    obtain ⟨asAll, as, hr⟩ := hreg P.n (w.getD fun _ => 1)
    rw [hr] at hp
    obtain ⟨b, hb, -, -, -, hbud, -⟩ := C02_l0_prox_weights nnz asAll ⟨w.getD fun _ => 1, as⟩ y step
    rw [hb] at hp
    cases hp
    apply hbud
    cases w with
    | none => simpa using hnnz
    | some v => exact hw v rfl

/-- **C39**, prediction: after a successful fit `predict` gives `∑ j, A i j * x j` for row `i`; before any fit it raises `NotFittedError`; with another number of features it raises
`AssertionError`. -/
theorem C39_predict (M : LinModelCfg) (st : LinState) (P : LinProblem ℝ) (x0 : Option (Vec ℝ P.n)) (warm : Bool) (w : Option (Vec ℝ P.n)) (x : Vec ℝ P.n)
    (L : Logger (PyVal ℝ P.n)) (h : linFit M P x0 warm w = .ok (x, L)) :
    (∀ (q : ℕ) (A : Matrix (Fin q) (Fin P.n) ℝ), ∃ y, linPredict (linFitCall M st P x0 warm w).2 A = .ok y ∧ ∀ i, y i = ∑ j, A i j * x j) ∧
    (∀ (q k : ℕ) (A : Matrix (Fin q) (Fin k) ℝ), k ≠ P.n → linPredict (linFitCall M st P x0 warm w).2 A = .error .assertionError) ∧
    (∀ (q k : ℕ) (A : Matrix (Fin q) (Fin k) ℝ), linPredict none A = .error .notFitted) := by
  have e : (linFitCall M st P x0 warm w).2 = some ⟨P.n, x⟩ := by unfold linFitCall; rw [h]
  rw [e]
  refine ⟨fun q A => ⟨A *ᵥ x, ?_, fun i => rfl⟩, fun q k A hk => ?_, fun q k A => rfl⟩
  · simp [linPredict]
  · simp [linPredict, hk]

/-- Hyperparameters of a small `LinearL0Model` used in the examples. -/
noncomputable def exL0Model (as : ∀ n, ArgSort (Fin n) ℝ) (as' : ∀ (n : ℕ) (w : Vec ℝ n), ArgSort {i // participation w i = true} ℝ) : LinModelCfg where
  sr3 := none
  tol := 1 / 10
  maxIter := 1
  stepping := "fixed"
  fixedStepLen := some 1
  prior := .none
  loggerKind := .tuple
  loggerKeys := []
  regularizer := fun n w => l0Regularizer (some 1) (as n) (some ⟨w, as' n w⟩)

/-- A prox that never raises makes the plain model return. -/
theorem linFit_plain_returns (M : LinModelCfg) (hs : M.sr3 = none) (hpr : M.prior = .none) (hk : M.loggerKind = .tuple) (hks : M.loggerKeys.Nodup)
    (g : ∀ n, Vec ℝ n → Vec ℝ n → WithTop ℝ) (hv : ∀ n w x, (M.regularizer n w).value x = .ok (g n w x))
    (hp : ∀ n w y t, ∃ z, (M.regularizer n w).prox y t = .ok z)
    (P : LinProblem ℝ) (x0 : Option (Vec ℝ P.n)) (warm : Bool) (w : Option (Vec ℝ P.n)) : ∃ x L, linFit M P x0 warm w = .ok (x, L) := by
  unfold linFit
  simp only [hs, hpr, hk, linOracleInstantiate]
  obtain ⟨x, Lf, s', h⟩ := C16_returns (linOracle P.a P.b .nonInformative) (M.regularizer P.n (w.getD fun _ => 1)) _ _ _
    (fun x s => ⟨s, rfl⟩) (fun x s => ⟨s, rfl⟩) (hv P.n _) (hp P.n _) M.solver (if warm then x0.getD fun _ => 1 else fun _ => 1) _
    (Logger.good_init M.loggerKeys hks) ()
  obtain ⟨L', hL'⟩ := logIC_ok Lf (linAic P.a P.b .nonInformative x) (linBic P.a P.b .nonInformative x)
  refine ⟨x, L', ?_⟩
  refine except_bind_ok.2 ⟨_, rfl, except_bind_ok.2 ⟨_, h, except_bind_ok.2 ⟨_, hL', rfl⟩⟩⟩

/-- Non-vacuity of C39: the example model can be fitted to every problem. -/
example (as : ∀ n, ArgSort (Fin n) ℝ) (as' : ∀ (n : ℕ) (w : Vec ℝ n), ArgSort {i // participation w i = true} ℝ) (P : LinProblem ℝ) :
    (∃ x L, linFit (exL0Model as as') P none false none = .ok (x, L) ∧ (numNonzero x : ℤ) ≤ 1) := by
  obtain ⟨x, L, h⟩ := linFit_plain_returns (exL0Model as as') rfl rfl rfl (by simp [exL0Model])
    (fun n w x => if (nnzCount x : ℤ) > 1 then ⊤ else 0)
    (fun n w x => by simp only [exL0Model, l0Regularizer]; split_ifs <;> rfl)
    (fun n w y t => (C02_l0_prox_weights 1 (as n) ⟨w, as' n w⟩ y t).imp fun z h => h.1) P none false none
  exact ⟨x, L, h, C39_l0_budget _ 1 (by norm_num) (by simp [exL0Model]) (fun n w => ⟨as n, as' n w, rfl⟩) P _ _ _ x L (by simp) h⟩

/-! ## C40 -/

/-- **C40**, the reason it fails: the weights attached to a problem have no influence on any fit. -/
theorem C40_weights_ignored (M : LinModelCfg) {m n : ℕ} (a : Matrix (Fin m) (Fin n) ℝ) (b : Vec ℝ m) (c : Matrix (Fin n) (Fin n) ℝ)
    (r r' : Option (Vec ℝ n)) (sd : StdArg ℝ m) (x0 : Option (Vec ℝ n)) (warm : Bool) (w : Option (Vec ℝ n)) :
    linFit M ⟨m, n, a, b, c, r, sd⟩ x0 warm w = linFit M ⟨m, n, a, b, c, r', sd⟩ x0 warm w := rfl

/-- A lasso model (`LinearL1Model(lam=1)`), one iteration with fixed step 1. -/
noncomputable def exL1Model : LinModelCfg where
  sr3 := none
  tol := 1 / 10
  maxIter := 1
  stepping := "fixed"
  fixedStepLen := some 1
  prior := .none
  loggerKind := .tuple
  loggerKeys := []
  regularizer := fun _ w => l1Regularizer 1 (some w)

/-- The data of the counterexample: one feature `u`, equal to the target `v`. -/
def exFrame : String → Option (Vec ℝ 1) := fun s => if s = "u" ∨ s = "v" then some (fun _ => 1) else none

/-- **C40 is violated**: the dataframe problem that must include feature `u` carries weight 0 for it, but `fit_problem` fits coefficient 0 (the least squares coefficient is 1, where the
gradient of the loss vanishes); passing the problem's own weights explicitly gives 1. -/
theorem C40_must_include_violated : ∃ P, linFromDataframe exFrame ["u"] "v" (some ["u"]) = .ok P ∧ (∃ r, P.regWeights = some r ∧ ∀ i, r i = 0) ∧
    (∃ x L, linFit exL1Model P none false none = .ok (x, L) ∧ 0 < P.n ∧ ∀ i, x i = 0) ∧
    (∃ x L, linFit exL1Model P none false P.regWeights = .ok (x, L) ∧ ∀ i, x i = 1) := by
  have key : ∀ (P : LinProblem ℝ), (∀ (w : Option (Vec ℝ P.n)), P.a = (fun _ _ => 1) → P.b = (fun _ => 1) → P.n = 1 →
      ∃ x L, linFit exL1Model P none false w = .ok (x, L) ∧ ∃ y, (∀ i, y i = 1) ∧ (l1Regularizer 1 (some (w.getD fun _ => 1))).prox y 1 = .ok x) := by
    intro P w ha hb hn
    obtain ⟨x, L, h⟩ := linFit_plain_returns exL1Model rfl rfl rfl (by simp [exL1Model])
      (fun n w x => ((l1Regularizer 1 (some w)).value x).toOption.getD 0)
      (fun n w x => by simp [exL1Model, l1Regularizer, Except.toOption])
      (fun n w y t => by simp [exL1Model, l1Regularizer]) P none false w
    refine ⟨x, L, h, ?_⟩
    unfold linFit at h
    simp only [exL1Model, linOracleInstantiate] at h
    obtain ⟨pr, hpr, h⟩ := except_bind_ok.1 h
    cases hpr
    obtain ⟨⟨⟨y, Ly⟩, sy⟩, hy, h⟩ := except_bind_ok.1 h
    obtain ⟨Lz, -, h⟩ := except_bind_ok.1 h
    cases h
    obtain ⟨k, X, Ls, s1, L1, -, h0, hk, -, -, hsteps, hguards, hend⟩ := pgdOptimize_trace _ _ _ _ _
      (fun x _ x' _ => (l1Regularizer 1 (some (w.getD fun _ => 1))).prox (fun i => x i - 1 * linGradient P.a P.b .nonInformative x i) 1 = .ok x')
      (fun x it L s x' L' s' hb => by
        obtain ⟨g, s1, step, s2, hg, hst, hp, _⟩ := pgdBody_ok _ _ _ _ _ _ _ _ _ _ _ hb
        cases hg
        unfold chooseStep at hst
        rw [if_neg (by simp [LinModelCfg.solver])] at hst
        obtain ⟨he, -⟩ := pure_ok.1 hst
        have : step = 1 := by rw [← he]; simp [LinModelCfg.solver, LinModelCfg.step]
        subst this
        exact hp) _ _ _ _ hy
    have hk1 : k = 1 := by
      cases k with
      | zero => exact absurd ⟨Or.inl (by omega), by simp [LinModelCfg.solver]⟩ hend
      | succ j =>
        have := (hguards j (by omega)).2
        simp [LinModelCfg.solver] at this
        omega
    subst hk1
    have hst := hsteps 0 (by omega)
    simp only [Nat.zero_add] at hst
    rw [h0, hk] at hst
    refine ⟨_, fun i => ?_, hst⟩
    simp only [Bool.false_eq_true, if_false, linGradient, ha, hb]
    obtain ⟨m', n', a', b', c', r'⟩ := P
    simp only at hn
    subst hn
    simp [mulVec, dotProduct, InstPrior.gradient]
  let P : LinProblem ℝ := ⟨1, ["u"].length, Matrix.of fun i j => ((exFrame ["u"][j]).getD 0) i, fun _ => 1, 1, some (dataframeWeights ["u"] (some ["u"])), .none⟩
  have hi : ∀ i : Fin P.n, i = (⟨0, Nat.one_pos⟩ : Fin 1) := fun i => Subsingleton.elim (α := Fin 1) _ _
  have ha : P.a = fun _ _ => 1 := by
    funext i j
    rw [hi j]
    simp [P, exFrame]
  have hr : ∀ i : Fin P.n, (dataframeWeights ["u"] (some ["u"]) : Vec ℝ 1) i = 0 := by
    intro i
    rw [hi i]
    simp [dataframeWeights]
  refine ⟨P, by simp [linFromDataframe, exFrame, linProblemInit, P], ⟨_, rfl, hr⟩, ?_, ?_⟩
  · obtain ⟨x, L, h, y, hy, hp⟩ := key P none ha rfl rfl
    refine ⟨x, L, h, Nat.one_pos, fun i => ?_⟩
    simp only [l1Regularizer, Except.ok.injEq] at hp
    rw [← hp]
    norm_num [hy, soft, weightsOrOnes, clip0]
  · obtain ⟨x, L, h, y, hy, hp⟩ := key P (some (dataframeWeights ["u"] (some ["u"]))) ha rfl rfl
    refine ⟨x, L, h, fun i => ?_⟩
    rw [(C11_weight_zero_untouched _ i (hr i) 1 1 1 1 _ _).1 hp, hy]

/-- **C40**, what holds: weights passed to `fit_problem` explicitly do exempt their zero coordinates: the fitted coefficient is the end point of a plain gradient step for the least squares loss. (Missing for the full
claim: `fit_problem` reading the weights of the problem.) -/
theorem C40_must_include_partial (M : LinModelCfg) (hs : M.sr3 = none) (hmax : 1 ≤ M.maxIter) (P : LinProblem ℝ) (w : Vec ℝ P.n)
    (hreg : (∃ lam, M.regularizer P.n w = l1Regularizer lam (some w)) ∨ (∃ rho lam, M.regularizer P.n w = cadRegularizer rho lam (some w)) ∨
      (∃ rho sigma lam, M.regularizer P.n w = scadRegularizer rho sigma lam (some w)) ∨
      (∃ nnz asAll as, M.regularizer P.n w = l0Regularizer nnz asAll (some ⟨w, as⟩)))
    (x0 : Option (Vec ℝ P.n)) (warm : Bool) (x : Vec ℝ P.n) (L : Logger (PyVal ℝ P.n)) (h : linFit M P x0 warm (some w) = .ok (x, L))
    (i : Fin P.n) (hi : w i = 0) :
    ∃ (xp : Vec ℝ P.n) (step : ℝ), (0 < M.step → 0 < step) ∧ x i = xp i - step * ∑ r, P.a r i * (∑ j, P.a r j * xp j - P.b r) := by
  unfold linFit at h
  simp only [hs, Option.getD_some] at h
  obtain ⟨pr, hpr, h⟩ := except_bind_ok.1 h
  have hpr' : pr = .nonInformative := by
    unfold linOracleInstantiate at hpr
    cases hm : M.prior with
    | none => rw [hm] at hpr; cases hpr; rfl
    | gaussian params => rw [hm] at hpr; simp [gaussInstantiateArg] at hpr
  subst hpr'
  obtain ⟨⟨⟨y, Ly⟩, sy⟩, hy, h⟩ := except_bind_ok.1 h
  obtain ⟨Lz, -, h⟩ := except_bind_ok.1 h
  cases h
  obtain ⟨k, X, Ls, s1, L1, -, h0, hk, -, -, hsteps, hguards, hend⟩ := pgdOptimize_trace _ _ _ _ _
    (fun x _ x' _ => ∃ step : ℝ, (0 < M.step → 0 < step) ∧
      (M.regularizer P.n w).prox (fun i => x i - step * linGradient P.a P.b .nonInformative x i) step = .ok x')
    (fun x it L s x' L' s' hb => by
      obtain ⟨g, s1, step, s2, hg, hst, hp, _⟩ := pgdBody_ok _ _ _ _ _ _ _ _ _ _ _ hb
      cases hg
      exact ⟨step, fun hpos => chooseStep_pos _ _ _ _ _ _ _ _ hpos hst, hp⟩) _ _ _ _ hy
  cases k with
  | zero => exact absurd ⟨Or.inl (by have := i.2; omega), by simpa [LinModelCfg.solver] using (by omega : 0 < M.maxIter)⟩ hend
  | succ j =>
    obtain ⟨step, hpos, hp⟩ := hsteps j (by omega)
    rw [hk] at hp
    refine ⟨X j, step, hpos, ?_⟩
    have hx : y i = X j i - step * linGradient P.a P.b .nonInformative (X j) i := by
      rcases hreg with ⟨lam, hr⟩ | ⟨rho, lam, hr⟩ | ⟨rho, sigma, lam, hr⟩ | ⟨nnz, asAll, as, hr⟩ <;> rw [hr] at hp
      · exact (C11_weight_zero_untouched w i hi lam 1 1 step _ _).1 hp
      · exact (C11_weight_zero_untouched w i hi lam rho 1 step _ _).2.1 hp
      · exact (C11_weight_zero_untouched w i hi lam rho sigma step _ _).2.2.1 hp
      · exact (C11_weight_zero_untouched w i hi 1 1 1 step _ _).2.2.2 nnz asAll as hp
    change y i = _
    rw [hx]
    simp [linGradient, mulVec, dotProduct, InstPrior.gradient]

/-- Non-vacuity of the partial C40: the lasso of the counterexample. -/
example (P : LinProblem ℝ) (w : Vec ℝ P.n) : exL1Model.sr3 = none ∧ 1 ≤ exL1Model.maxIter ∧ 0 < exL1Model.step ∧
    exL1Model.regularizer P.n w = l1Regularizer 1 (some w) ∧ ∃ x L, linFit exL1Model P none false (some w) = .ok (x, L) :=
  ⟨rfl, by simp [exL1Model], by simp [exL1Model, LinModelCfg.step], rfl,
    linFit_plain_returns exL1Model rfl rfl rfl (by simp [exL1Model])
      (fun n w x => ((l1Regularizer 1 (some w)).value x).toOption.getD 0)
      (fun n w x => by simp [exL1Model, l1Regularizer, Except.toOption])
      (fun n w y t => by simp [exL1Model, l1Regularizer]) P none false (some w)⟩

/-! ## C42 -/

/-- A call on a linear model object. -/
inductive LinOp where
  | fit (P : LinProblem ℝ) (x0 : Option (Vec ℝ P.n)) (warm : Bool) (w : Option (Vec ℝ P.n))
  | predict {m n : ℕ} (A : Matrix (Fin m) (Fin n) ℝ)

/-- The object after a call: `predict` changes nothing. -/
noncomputable def LinOp.after (M : LinModelCfg) (st : LinState) : LinOp → LinState
  | .fit P x0 warm w => (linFitCall M st P x0 warm w).2
  | .predict _ => st

/-- The object after a sequence of calls. -/
noncomputable def linRun (M : LinModelCfg) (st : LinState) (ops : List LinOp) : LinState := ops.foldl (LinOp.after M) st

/-- The call is not a successful fit. -/
def LinOp.NoFit (M : LinModelCfg) : LinOp → Prop
  | .fit P x0 warm w => ∃ e, linFit M P x0 warm w = .error e
  | .predict _ => True

/-- **C42**: after any calls, a successful fit and any further calls that are not successful fits, coefficients and predictions are those of a fresh model that has only seen that fit; with no
successful fit at all, `predict` raises `NotFittedError`. -/
theorem C42_history (M : LinModelCfg) (before after : List LinOp) (hafter : ∀ op ∈ after, op.NoFit M)
    (P : LinProblem ℝ) (x0 : Option (Vec ℝ P.n)) (warm : Bool) (w : Option (Vec ℝ P.n)) (r) (h : linFit M P x0 warm w = .ok r) :
    linRun M none (before ++ .fit P x0 warm w :: after) = linRun M none [.fit P x0 warm w] ∧
    (∀ {q k : ℕ} (A : Matrix (Fin q) (Fin k) ℝ), linPredict (linRun M none (before ++ .fit P x0 warm w :: after)) A =
      linPredict (linRun M none [.fit P x0 warm w]) A) ∧
    linRun M none [.fit P x0 warm w] = some ⟨P.n, r.1⟩ ∧
    (∀ {q k : ℕ} (A : Matrix (Fin q) (Fin k) ℝ), linPredict (linRun M none after) A = .error .notFitted) := by
  have hno : ∀ st : LinState, linRun M st after = st := by
    intro st
    unfold linRun
    induction after with
    | nil => rfl
    | cons op ops ih =>
      rw [List.foldl_cons]
      have : op.after M st = st := by
        have := hafter op (by simp)
        cases op with
        | fit P x0 warm w =>
          obtain ⟨e, he⟩ := this
          simp only [LinOp.after, linFitCall, he]
        | predict A => rfl
      rw [this]
      exact ih fun o ho => hafter o (by simp [ho])
  have hfit : ∀ st : LinState, LinOp.after M st (.fit P x0 warm w) = some ⟨P.n, r.1⟩ := by
    intro st; simp only [LinOp.after, linFitCall, h]
  have h1 : linRun M none [.fit P x0 warm w] = some ⟨P.n, r.1⟩ := by simp [linRun, hfit]
  have h2 : linRun M none (before ++ .fit P x0 warm w :: after) = some ⟨P.n, r.1⟩ := by
    unfold linRun
    rw [List.foldl_append, List.foldl_cons, hfit]
    exact hno _
  refine ⟨h2.trans h1.symm, fun A => by rw [h2, h1], h1, fun A => by rw [hno]; rfl⟩

/-- Non-vacuity of C42: a Gaussian prior makes every fit raise, the lasso never does. -/
example (P : LinProblem ℝ) : LinOp.NoFit { exL1Model with prior := .gaussian [] } (.fit P none false none) := by
  refine ⟨?_, ?_⟩
  rotate_left
  · unfold linFit exL1Model linOracleInstantiate gaussInstantiateArg
    simp [bind, Except.bind]
    rfl

end Verif
