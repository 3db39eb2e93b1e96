import Verif.Model.LmeClasses
import Verif.Props.LmeDescent
import Verif.Props.LinClasses

/-!
# C117, C118: the classes of mixed models and their defaults
-/

noncomputable section

namespace Verif

variable {N k p q : ℕ}

/-! ## C117 -/

theorem lmeDefaultModel_step (sort : NpSort) (c : LmeClassName) (sr3 : Bool) :
    (lmeDefaultModel sort c sr3).step = if sr3 then 1 / 40 else match c with
      | .simple => 5 / 100
      | .l0 => 5 / 100
      | .l1 => 1
      | .cad => 1 / 2
      | .scad => 1 / 2 := by
  cases sr3 <;> cases c <;> simp [LmeModelCfg.step, lmeDefaultModel, LmeClassName.defaultReg, LmeReg.lam?] <;> norm_num

theorem lmeDefaultModel_robust (sort : NpSort) (c : LmeClassName) (sr3 : Bool) : (lmeDefaultModel sort c sr3).Robust where
  adm := by
    refine ⟨?_, by norm_num [lmeDefaultModel], (fun s h => by cases h), fun s h => ?_⟩
    · cases sr3 <;> cases c <;> simp [lmeDefaultModel, LmeClassName.defaultReg, LmeReg.Admissible] <;> norm_num
    · cases sr3
      · cases h
      · cases h; norm_num
  init := by simp [lmeDefaultModel]
  kind := rfl
  keys := by change ["converged"].Nodup; decide
  vaida := by change _ ∉ ["converged"]; decide
  flip := fun h => absurd h (by change _ ∉ ["converged"]; decide)
  sr3 := by
    intro s h
    cases sr3
    · cases h
    · cases h; norm_num
  scad := by
    intro t ht
    have hstep := lmeDefaultModel_step sort c sr3
    cases c with
    | scad =>
      have h2 : 0 < t ∧ t ≤ 1 / 2 := by
        cases sr3 with
        | false =>
          change (if (lmeDefaultModel sort .scad false).stepping = "line-search" then
            ∃ n : ℕ, t = (lmeDefaultModel sort .scad false).step * (1 / 2) ^ n else t = (lmeDefaultModel sort .scad false).step) at ht
          rw [if_pos (show (lmeDefaultModel sort .scad false).stepping = "line-search" from rfl)] at ht
          obtain ⟨n, rfl⟩ := ht
          rw [hstep]
          have : (1 / 2 : ℝ) ^ n ≤ 1 := pow_le_one₀ (by norm_num) (by norm_num)
          simp only [Bool.false_eq_true, if_false]
          exact ⟨by positivity, by linarith⟩
        | true =>
          change (if false = true then t = 1 else if (lmeDefaultModel sort .scad true).stepping = "line-search" then
            ∃ n : ℕ, t = (lmeDefaultModel sort .scad true).step * (1 / 2) ^ n else t = (lmeDefaultModel sort .scad true).step) at ht
          rw [if_neg (by simp), if_neg (by simp [lmeDefaultModel])] at ht
          rw [ht, hstep]
          simp
          norm_num
      change t / (1 + t * 1e-4) * 1 ≠ 3.7 - 1
      intro h
      have : t / (1 + t * 1e-4) ≤ t := div_le_self h2.1.le (by nlinarith [h2.1])
      norm_num at h this
      linarith
    | l0 => cases sr3 <;> trivial
    | l1 => cases sr3 <;> trivial
    | _ => trivial

/-- **C117.** Each of the ten mixed-model classes, constructed without arguments, fits every well-formed data table: `fit` returns without an exception, whatever the start
values of the right lengths (nonnegative for the variances), and the fitted variances are nonnegative. -/
theorem C117_defaults_fit (sort : NpSort) (cls : LmeClassName) (sr3 : Bool) (st : LmeState)
    (x : Matrix (Fin N) (Fin k) ℝ) (y : Vec ℝ N) (labels : List String) (ffi fri : Bool) (P : LmeProblem ℝ)
    (hP : lmeFromXY x (some y) none labels ffi fri none none = .ok P)
    (hpos : ∀ v : Fin k, labels[(v : ℕ)]? = some "variance" → ∀ r, 0 < x r v)
    (beta0 gamma0 : Option (List ℝ)) (hb0 : ∀ b, beta0 = some b → b.length = fixedCount labels ffi)
    (hg0 : ∀ g, gamma0 = some g → g.length = randomCount labels fri ∧ ∀ v ∈ g, 0 ≤ v) (warm : Bool) :
    ∃ c, lmeFit (lmeDefaultModel sort cls sr3) st x y (some labels) ffi fri none none none ⟨beta0, gamma0, warm, none, none⟩ = (.ok (), some c) ∧
      ∀ v ∈ c.gamma, 0 ≤ v :=
  C83_fit_returns _ (lmeDefaultModel_robust sort cls sr3) rfl st x y labels ffi fri P hP hpos beta0 gamma0 hb0 hg0 warm

/-- Non-vacuity of C117: two observations. -/
example (sort : NpSort) (cls : LmeClassName) (sr3 : Bool) (y : Vec ℝ 2) :
    ∃ c, lmeFit (lmeDefaultModel sort cls sr3) none exTab y (some exTabLabels) true true none none none ⟨none, none, false, none, none⟩ = (.ok (), some c) ∧
      ∀ v ∈ c.gamma, 0 ≤ v := by
  obtain ⟨P, hP⟩ := exTab_ok' true true y
  exact C117_defaults_fit sort cls sr3 none exTab y _ true true P hP exTab_positive none none (by simp) (by simp) false

/-- **C117**, the budgets of `L0LmeModelSR3()`: when no weights are given, at most one fixed effect and at most one variance of the fit is not zero. -/
theorem C117_l0_sr3_default (sort : NpSort) (st : LmeState)
    (x : Matrix (Fin N) (Fin k) ℝ) (y : Vec ℝ N) (labels : List String) (ffi fri : Bool) (a : LmeFitArgs) (ha : a.feWeights = none ∧ a.reWeights = none) (c : LmeCoef)
    (h : lmeFit (lmeDefaultModel sort .l0 true) st x y (some labels) ffi fri none none none a = (.ok (), some c)) :
    c.beta.countP (· ≠ 0) ≤ 1 ∧ c.gamma.countP (· ≠ 0) ≤ 1 := by
  obtain ⟨P, coef, v, L0, hP, -, -⟩ := lmeFit_ok h
  obtain ⟨_, _, feW, reW, -, -, hlen, -, -, -, -, -, hf, hr, hPe⟩ := lmeFromXY_ok x (some y) none labels ffi fri none none P hP
  have e1 : P.feWeights = feW := by rw [hPe]
  have e2 : P.reWeights = reW := by rw [hPe]
  cases hf
  cases hr
  obtain ⟨h1, h2, -⟩ := C74_l0 (lmeDefaultModel sort .l0 true) (some 1) (some 1) sort rfl (fun s hs => by cases hs; rfl) (by simp [lmeDefaultModel, LmeClassName.maxIter]) st x y labels ffi fri none none none a c P hP
    (by rw [ha.1, Option.getD_none, e1, List.length_replicate, fixedCount_eq, labelIdx_length labels hlen]) h
  have z : ∀ n, (List.replicate n (1 : ℝ)).countP (· = 0) = 0 := by
    intro n
    rw [List.countP_eq_zero]
    intro v hv
    rw [List.eq_of_mem_replicate hv]
    simp
  have h1 := h1 1 rfl
  have h2 := h2 1 rfl
  rw [ha.1, Option.getD_none, e1, z] at h1
  rw [ha.2, Option.getD_none, e2, z] at h2
  constructor
  · simpa using h1
  · simpa using h2

/-- Non-vacuity: `L0LmeModelSR3()` on two observations with an intercept and a random intercept. -/
example (sort : NpSort) (y : Vec ℝ 2) : ∃ c, lmeFit (lmeDefaultModel sort .l0 true) none exTab y (some exTabLabels) true true none none none {} = (.ok (), some c) ∧
    c.beta.countP (· ≠ 0) ≤ 1 ∧ c.gamma.countP (· ≠ 0) ≤ 1 := by
  obtain ⟨P, hP⟩ := exTab_ok' true true y
  obtain ⟨c, hc, -⟩ := C117_defaults_fit sort .l0 true none exTab y _ true true P hP exTab_positive none none (by simp) (by simp) false
  exact ⟨c, hc, C117_l0_sr3_default sort none exTab y _ true true _ ⟨rfl, rfl⟩ c hc⟩

/-! ## C118 -/

/-- The strength of the penalty is zero. -/
def LmeReg.Off : LmeReg → Prop
  | .dummy => True
  | .l0 .. => False
  | .l1 lam => lam = 0
  | .cad _ lam => lam = 0
  | .scad rho _ lam => lam = 0 ∧ 1 < rho

theorem LmeReg.Off.build {r : LmeReg} (h : r.Off) (m : List ℤ) (w : Vec ℝ (p + q)) :
    ∃ base, r.build p q m w = .ok base ∧ base.prox = (dummyRegularizer : Regularizer ℝ (p + q)).prox := by
  cases r with
  | dummy => exact ⟨_, rfl, rfl⟩
  | l0 => exact h.elim
  | l1 lam => exact ⟨_, rfl, LinPenalty.Off.prox (pen := .l1 lam) h w⟩
  | cad rho lam => exact ⟨_, rfl, LinPenalty.Off.prox (pen := .cad lam rho) h w⟩
  | scad rho sigma lam =>
    refine ⟨scadRegularizer rho sigma lam (some w), ?_, LinPenalty.Off.prox (pen := .scad lam rho sigma) h w⟩
    change (scadInit rho sigma lam).map _ = _
    unfold scadInit
    rw [if_pos h.2]
    rfl

theorem wrapReg_prox_congr {base base' : Regularizer ℝ (p + q)} (h : base.prox = base'.prox) (eps : ℝ) :
    (wrapReg p q eps base).prox = (wrapReg p q eps base').prox := by
  unfold wrapReg positiveQuadrant elastic
  simp only [h]

theorem fakeOptimize_congr {n : ℕ} {σ : Type} (o : Oracle ℝ n σ) (f : Vec ℝ n → PyM σ (Vec ℝ n)) (R R' : Regularizer ℝ n) (x0 : Vec ℝ n)
    (L : Logger (PyVal ℝ n)) (hl : "loss" ∉ L.keys) : fakeOptimize o f R x0 L = fakeOptimize o f R' x0 L := by
  unfold fakeOptimize
  simp only [hl, if_false]

theorem lmeOptimize_congr {M M' : LmeModelCfg} {R R' : Regularizer ℝ (p + q)} (hp : R.prox = R'.prox) (hloss : "loss" ∉ M.loggerKeys)
    (h1 : M'.sr3 = M.sr3) (h2 : M'.solver = M.solver) (h3 : M'.initializer = M.initializer) (h4 : M'.loggerKind = M.loggerKind)
    (h5 : M'.loggerKeys = M.loggerKeys) (D : List (LmeGroup p q)) (Pr : LmeInstPrior ℝ p q) (beta : Vec ℝ p) (gamma : Vec ℝ q) :
    lmeOptimize M D Pr R beta gamma = lmeOptimize M' D Pr R' beta gamma := by
  have hl : "loss" ∉ (Logger.init M.loggerKind M.loggerKeys : Logger (PyVal ℝ (p + q))).keys := hloss
  unfold lmeOptimize
  rw [h1, h2, h3, h4, h5]
  cases M.sr3 with
  | none =>
    refine bind_congr fun bg => ?_
    rw [pgdOptimize_congr _ (R := R) (R' := R') _ (.of_eq hp _) _ _ (Or.inr hl)]
  | some s =>
    refine bind_congr fun bg => ?_
    have hi : (s.ipPractical R : IpCfg p q) = s.ipPractical R' := by
      unfold LmeSr3Cfg.ipPractical
      rw [hp]
    rw [hi]
    simp only [fakeOptimize_congr _ _ R R' _ _ hl]
    rw [pgdOptimize_congr _ (R := R) (R' := R') _ (.of_eq hp _) _ _ (Or.inr hl)]

theorem exc_bind_ok {α β : Type} {m : Except PyErr α} {f : α → Except PyErr β} {a : α} (h : m = .ok a) : (m >>= f) = f a := by
  rw [h]
  rfl

theorem lmeFitProblem_off (M : LmeModelCfg) (hoff : M.reg.Off) (hstep : M.sr3 ≠ none ∨ ∃ s, M.fixedStepLen = some s ∧ s ≠ 0)
    (hloss : "loss" ∉ M.loggerKeys) (st : LmeState) (P : LmeProblem ℝ) (a : LmeFitArgs)
    (hlen : (a.feWeights.getD P.feWeights ++ a.reWeights.getD P.reWeights).length = P.numFixed + P.numRandom) :
    lmeFitProblem M st P a = lmeFitProblem { M with reg := .dummy } st P a := by
  have hs : ({ M with reg := .dummy } : LmeModelCfg).step = M.step := by
    unfold LmeModelCfg.step
    rcases hstep with h | ⟨s, h, h0⟩
    · obtain ⟨s, hs⟩ := Option.ne_none_iff_exists'.1 h
      simp only [hs]
    · simp only [h, h0, if_false]
  have hsol : ({ M with reg := .dummy } : LmeModelCfg).solver = M.solver := by
    unfold LmeModelCfg.solver
    rw [hs]
  have hw : ∃ w, M.reg.weights P.numFixed P.numRandom (a.feWeights.getD P.feWeights ++ a.reWeights.getD P.reWeights) = .ok w := by
    cases hr : M.reg with
    | dummy => exact ⟨_, rfl⟩
    | l0 => rw [hr] at hoff; exact hoff.elim
    | scad => exact ⟨_, dif_pos hlen⟩
    | _ => exact ⟨_, dif_pos hlen⟩
  obtain ⟨w, hw⟩ := hw
  have hcore : lmeFitCore M st P a = lmeFitCore { M with reg := .dummy } st P a := by
    unfold lmeFitCore
    refine bind_congr fun m => bind_congr fun Pr => ?_
    obtain ⟨base, hb, hbp⟩ := hoff.build m w
    refine (exc_bind_ok hw).trans ((exc_bind_ok hb).trans ?_)
    refine bind_congr fun D => bind_congr fun beta => bind_congr fun gamma => ?_
    rw [lmeOptimize_congr (M := M) (M' := { M with reg := .dummy }) (R' := wrapReg _ _ M.elasticEps dummyRegularizer)
      (wrapReg_prox_congr hbp _) hloss rfl hsol rfl rfl rfl]
  unfold lmeFitProblem
  rw [hcore]
  rfl

/-- **C118** where the step length does not depend on the class (SR3 models, and plain models with an explicit `fixed_step_len`): a model with an L1, CAD or SCAD penalty of
strength zero does exactly what the model without a penalty does with the same arguments. Missing: plain models with the default step (false, see
`C118_zero_strength_violated`) and logged losses. -/
theorem C118_zero_strength_partial (M : LmeModelCfg) (hoff : M.reg.Off) (hstep : M.sr3 ≠ none ∨ ∃ s, M.fixedStepLen = some s ∧ s ≠ 0)
    (hloss : "loss" ∉ M.loggerKeys) (st : LmeState) (x : Matrix (Fin N) (Fin k) ℝ) (y : Vec ℝ N) (labels : List String) (ffi fri : Bool)
    (a : LmeFitArgs) (hfe : ∀ w, a.feWeights = some w → w.length = fixedCount labels ffi)
    (hre : ∀ w, a.reWeights = some w → w.length = randomCount labels fri) :
    lmeFit M st x y (some labels) ffi fri none none none a = lmeFit { M with reg := .dummy } st x y (some labels) ffi fri none none none a := by
  unfold lmeFit
  simp only
  cases hP : lmeFromXY x (some y) none labels ffi fri none none with
  | error e => rfl
  | ok P =>
    obtain ⟨_, _, feW, reW, -, -, hlen, -, -, -, -, -, hf, hr, hPe⟩ := lmeFromXY_ok x (some y) none labels ffi fri none none P hP
    have hF := numFixed_eq P ffi fri (by rw [hPe])
    have hR := numRandom_eq P ffi fri (by rw [hPe])
    have hcl : P.columnLabels = labels := by rw [hPe]
    rw [hcl, ← fixedCount_eq] at hF
    rw [hcl, ← randomCount_eq] at hR
    have e1 : P.feWeights = feW := by rw [hPe]
    have e2 : P.reWeights = reW := by rw [hPe]
    cases hf
    cases hr
    simp only
    rw [lmeFitProblem_off M hoff hstep hloss st P a (by
      rw [List.length_append, hF, hR]
      congr 1
      · cases h : a.feWeights with
        | none => rw [Option.getD_none, e1, List.length_replicate, fixedCount_eq, labelIdx_length labels hlen]
        | some w => exact hfe w h
      · cases h : a.reWeights with
        | none => rw [Option.getD_none, e2, List.length_replicate, randomCount_eq, labelIdx_length labels hlen]
        | some w => exact hre w h)]

/-- Non-vacuity of C118: `L1LmeModelSR3(lam=0)` and `SimpleLMEModelSR3()` on two observations; both return (C83). -/
example (sort : NpSort) (y : Vec ℝ 2) : ∃ c, lmeFit { lmeDefaultModel sort .l1 true with reg := .l1 0 } none exTab y (some exTabLabels) true true none none none {} = (.ok (), some c) ∧
    lmeFit { lmeDefaultModel sort .l1 true with reg := .dummy } none exTab y (some exTabLabels) true true none none none {} = (.ok (), some c) := by
  obtain ⟨P, hP⟩ := exTab_ok' true true y
  obtain ⟨c, hc, -⟩ := C117_defaults_fit sort .simple true none exTab y _ true true P hP exTab_positive none none (by simp) (by simp) false
  refine ⟨c, ?_, hc⟩
  rw [C118_zero_strength_partial _ (by exact rfl) (.inl (by simp [lmeDefaultModel])) (by change _ ∉ ["converged"]; decide) _ _ _ _ _ _ _ (by simp) (by simp)]
  exact hc

/-! ### The default steps -/

theorem wrapReg_off_prox {base : Regularizer ℝ (1 + 0)} (hp : base.prox = dummyRegularizer.prox) (eps : ℝ) (y : Vec ℝ (1 + 0)) (t : ℝ) :
    (wrapReg 1 0 eps base).prox y t = .ok fun i => y i / (1 + t * eps) := by
  rw [wrapReg_prox_congr hp]
  unfold wrapReg positiveQuadrant elastic dummyRegularizer
  simp only [Except.ok.injEq]
  funext i
  rw [if_neg]
  simp only [positiveMask, decide_eq_true_eq, not_le]
  exact i.2

theorem oneGroup_posVar (y : ℝ) : PosVar [oneGroup y p q] := by
  intro g hg
  obtain rfl := List.mem_singleton.1 hg
  intro i
  exact one_pos

theorem oneGroup_value (Z : Vec ℝ (1 + 0)) : (lmeOracle [oneGroup 1 1 0] .nonInformative).value Z () = .ok (1 / 2 * (1 - Z 0) ^ 2, ()) := by
  have hl : lmeLoss [oneGroup 1 1 0] .nonInformative (xBeta Z) (xGamma Z) = .ok (1 / 2 * (1 - Z 0) ^ 2) :=
    lmeLoss_ok.2 ⟨inDomain_of_nonneg (oneGroup_posVar 1) fun j => j.elim0, by
      rw [marginalNLL_one]
      simp only [LmeInstPrior.loss, add_zero]
      rfl⟩
  simp only [lmeOracle, hl]
  rfl

theorem one_choose {base : Regularizer ℝ (1 + 0)} (hp : base.prox = dummyRegularizer.prox) {eps : ℝ} {cfg : PGDCfg ℝ}
    (ht0 : 1 / 10 ^ 14 < cfg.fixedStepLen) (ht1 : cfg.fixedStepLen ≤ 1) (X g : Vec ℝ (1 + 0)) (hg : g 0 = X 0 - 1) :
    chooseStep (lmeOracle [oneGroup 1 1 0] .nonInformative) (wrapReg 1 0 eps base) cfg X (-g) () = .ok (cfg.fixedStepLen, ()) := by
  unfold chooseStep
  split_ifs
  · rw [lineSearch, dif_pos ht0]
    refine bind_ok.2 ⟨_, _, callReg_ok.2 ⟨wrapReg_off_prox hp eps _ _, rfl⟩, bind_ok.2 ⟨_, _, oneGroup_value _,
      bind_ok.2 ⟨_, _, oneGroup_value _, ?_⟩⟩⟩
    rw [if_pos]
    · rfl
    · obtain ⟨z, hz⟩ : ∃ z : Vec ℝ (1 + 0), z = fun i => (X + cfg.fixedStepLen • -g) i / (1 + cfg.fixedStepLen * eps) := ⟨_, rfl⟩
      rw [← hz]
      unfold Accept
      have h1 : dot (-g) (z - X) = -(X 0 - 1) * (z 0 - X 0) := by
        rw [← hg]
        change ∑ i : Fin 1, (-g) i * (z - X) i = _
        simp
      have h2 : normSq (z - X) = (z 0 - X 0) ^ 2 := by
        change ∑ i : Fin 1, (z - X) i ^ 2 = _
        simp
      have h0 : (X + cfg.fixedStepLen • -g) 0 / (1 + cfg.fixedStepLen * eps) = z 0 := by rw [hz]
      rw [h1, h2, h0]
      have ht : 0 < cfg.fixedStepLen := lt_trans (by norm_num) ht0
      have h3 : 1 / 2 ≤ 1 / (2 * cfg.fixedStepLen) := by
        rw [div_le_div_iff₀ (by norm_num) (by linarith)]
        linarith
      nlinarith [mul_le_mul_of_nonneg_right h3 (sq_nonneg (z 0 - X 0))]
  · rfl

/-- The iterates of a plain model whose penalty is off, for one observation 1, one fixed effect and the start 1. -/
theorem one_iterates {M : LmeModelCfg} (hsr : M.sr3 = none) (hin : M.initializer ≠ some "EM") (ht0 : 1 / 10 ^ 14 < M.step) (ht1 : M.step ≤ 1)
    (hit : 0 < M.maxIter) {F R : ℕ} (hF : F = 1) (hR : R = 0) {base : Regularizer ℝ (F + R)} (hp : base.prox = dummyRegularizer.prox)
    {beta : Vec ℝ F} {gamma : Vec ℝ R} (hb : List.ofFn beta = List.replicate F 1) {x : Vec ℝ (F + R)} {L : Logger (PyVal ℝ (F + R))}
    (h : lmeOptimize M [oneGroup 1 F R] .nonInformative (wrapReg F R M.elasticEps base) beta gamma = .ok (x, L)) :
    ∃ (k : ℕ) (X : ℕ → ℝ), X 0 = 1 ∧ List.ofFn (xBeta x) = [X (k + 1)] ∧
      (∀ i ≤ k, X (i + 1) = (X i - M.step * (X i - 1)) / (1 + M.step * M.elasticEps)) ∧
      ∀ i < k, M.tol < 0 ∨ M.tol ^ 2 < (X (i + 1) - X i) ^ 2 := by
  subst hF hR
  have hb : beta 0 = 1 := by simpa using hb
  unfold lmeOptimize at h
  rw [hsr] at h
  unfold lmeInitialize at h
  rw [if_neg hin] at h
  obtain ⟨bg, h0, h⟩ := ebind_ok.1 h
  cases h0
  obtain ⟨⟨⟨x', L'⟩, _⟩, hr, h⟩ := ebind_ok.1 h
  cases h
  obtain ⟨k, X, Ls, s1, L1, -, hX0, hk, -, -, hst, hgd, hend⟩ := pgdOptimize_trace _ _ _ _ _
    (fun a _ b _ => b 0 = (a 0 - M.step * (a 0 - 1)) / (1 + M.step * M.elasticEps))
    (fun a it L s b L' s' hbody => by
      obtain ⟨g, s1, step, s2, hg, hst, hpx, -⟩ := pgdBody_ok _ _ _ _ _ _ _ _ _ _ _ hbody
      have hg0 : g 0 = a 0 - 1 := by
        obtain ⟨gb, hgb, hg⟩ := ebind_ok.1 hg
        obtain ⟨gg, hgg, hg⟩ := ebind_ok.1 hg
        cases hg
        have := gradientBeta_one hgb
        change gb 0 = _
        rw [this]
        change -(1 - a 0) = _
        ring
      have hc := one_choose hp (eps := M.elasticEps) (cfg := M.solver) ht0 ht1 a g hg0
      cases s1
      rw [hc] at hst
      cases hst
      rw [wrapReg_off_prox hp] at hpx
      cases hpx
      simp only [hg0]
      rfl) _ _ _ _ hr
  cases k with
  | zero => exact absurd ⟨Or.inl (by norm_num), by change ((0 + 0 : ℕ) : ℤ) < M.maxIter; simpa using hit⟩ hend
  | succ k =>
    refine ⟨k, fun i => X i 0, ?_, ?_, fun i hi => hst i (by omega), fun i hi => ?_⟩
    · change X 0 0 = 1
      rw [hX0, ← hb]; rfl
    · rw [← hk]
      rfl
    · obtain ⟨h1, -⟩ := hgd (i + 1) (by omega)
      refine h1.imp id fun h => ?_
      have : normSq (X (i + 1) - X i) = (X (i + 1) 0 - X i 0) ^ 2 := by
        change ∑ j : Fin 1, (X (i + 1) - X i) j ^ 2 = _
        simp
      rw [← this]
      exact h

/-- **C118** fails for plain models with the default step (`1 / (lam + 1)` instead of `5e-2`, `lme/models.py:498, 995`): `L1LmeModel()`, whose strength is zero by default,
and `SimpleLMEModel()` fit different coefficients to a single observation. The latter stops after one step, at a distance of about ten times the tolerance from the optimum `1 / (1 + 1e-4)` since its first step is shorter than the tolerance. -/
theorem C118_zero_strength_violated (sort : NpSort) : ∃ c c' : LmeCoef,
    lmeFit (lmeDefaultModel sort .l1 false) none (!![0, 1, 1] : Matrix (Fin 1) (Fin 3) ℝ) (fun _ => 1) (some ["group", "fixed", "variance"]) false false none none none {} = (.ok (), some c) ∧
    lmeFit (lmeDefaultModel sort .simple false) none (!![0, 1, 1] : Matrix (Fin 1) (Fin 3) ℝ) (fun _ => 1) (some ["group", "fixed", "variance"]) false false none none none {} = (.ok (), some c') ∧
    c.beta = [1 / (1 + 1e-4)] ∧ c'.beta = [1 / (1 + 5e-2 * 1e-4)] ∧ c.beta ≠ c'.beta := by
  obtain ⟨x, hx⟩ : ∃ x : Matrix (Fin 1) (Fin 3) ℝ, x = !![0, 1, 1] := ⟨_, rfl⟩
  obtain ⟨y, hy⟩ : ∃ y : Vec ℝ 1, y = fun _ => 1 := ⟨_, rfl⟩
  obtain ⟨P, hP⟩ : ∃ P, lmeFromXY x (some y) none ["group", "fixed", "variance"] false false none none = .ok P :=
    lmeFromXY_succeeds x (some y) none _ false false none none 0 2 (by decide) (by decide) rfl (by decide)
      (by simp) (by intro r; fin_cases r; simp [hx]) (by intro r; fin_cases r; exact ⟨0, by simp [hx]⟩) (.inl rfl) (by simp) _ _ rfl rfl
  have hpos : ∀ v : Fin 3, ["group", "fixed", "variance"][(v : ℕ)]? = some "variance" → ∀ r, 0 < x r v := by
    intro v hv r
    fin_cases v
    · exact absurd hv (by decide)
    · exact absurd hv (by decide)
    · fin_cases r; simp [hx]
  have key : ∀ cls : LmeClassName, (cls.defaultReg sort false).Off → (lmeDefaultModel sort cls false).step ≤ 1 → 1 / 10 ^ 14 < (lmeDefaultModel sort cls false).step →
      0 < cls.maxIter false →
      ∃ c, lmeFit (lmeDefaultModel sort cls false) none x y (some ["group", "fixed", "variance"]) false false none none none {} = (.ok (), some c) ∧
      ∃ (k : ℕ) (X : ℕ → ℝ), X 0 = 1 ∧ c.beta = [X (k + 1)] ∧
        (∀ i ≤ k, X (i + 1) = (X i - (lmeDefaultModel sort cls false).step * (X i - 1)) / (1 + (lmeDefaultModel sort cls false).step * 1e-4)) ∧
        ∀ i < k, (1e-5 : ℝ) < 0 ∨ (1e-5 : ℝ) ^ 2 < (X (i + 1) - X i) ^ 2 := by
    intro cls hoff h1 h0 hmax
    obtain ⟨c, hc, -⟩ := C117_defaults_fit sort cls false none x y _ false false P hP hpos none none (by simp) (by simp) false
    refine ⟨c, hc, ?_⟩
    obtain ⟨P', coef, v, L0, hP', hcc, hcore⟩ := lmeFit_ok hc
    cases hcc
    cases hP.symm.trans hP'
    obtain ⟨m, Pr, w, base, D, beta, gamma, us, per, -, hPr, -, hbase, hD, hbeta, -, hopt, -, -, hcoef⟩ := lmeFitCore_ok hcore
    obtain ⟨_, _, feW, reW, -, -, hlen, -, -, -, -, -, hf, hr, hPe⟩ := lmeFromXY_ok x (some y) none _ false false none none P hP
    have hF := numFixed_eq P false false (by rw [hPe])
    have hR := numRandom_eq P false false (by rw [hPe])
    have hcl : P.columnLabels = ["group", "fixed", "variance"] := by rw [hPe]
    rw [hcl] at hF hR
    have hF : P.numFixed = 1 := hF.trans (by decide)
    have hR : P.numRandom = 0 := hR.trans (by decide)
    obtain ⟨gr, vr, hgr, hvr, hgl, hD'⟩ := lmeGroups_table hP
    have hD' := hD.symm.trans hD'
    have hgr : gr = 0 := by
      have : labelIdx (p := 3) ["group", "fixed", "variance"] (· = GROUP) = [0] := by decide
      rw [this] at hgr
      simpa using hgr.symm
    have hvr : vr = 2 := by
      have : labelIdx (p := 3) ["group", "fixed", "variance"] (· = VARIANCE) = [2] := by decide
      rw [this] at hvr
      simpa using hvr.symm
    subst hgr hvr hx hy
    rw [one_table hF hR] at hD'
    cases hD'
    cases hPr
    obtain ⟨base', hb', hbp⟩ := hoff.build m w
    cases hb'.symm.trans hbase
    have hbeta := asVec_ok.1 hbeta
    obtain ⟨k, X, hX0, hXk, hst, hgd⟩ := one_iterates (M := lmeDefaultModel sort cls false) rfl (by simp [lmeDefaultModel]) h0 h1 hmax hF hR hbp hbeta hopt
    exact ⟨k, X, hX0, by rw [hcoef]; exact hXk, hst, hgd⟩
  obtain ⟨c, hc, k, X, hX0, hXk, hst, -⟩ := key .l1 rfl (by rw [lmeDefaultModel_step]; norm_num) (by rw [lmeDefaultModel_step]; norm_num) (by norm_num [LmeClassName.maxIter])
  obtain ⟨c', hc', k', X', hX0', hXk', hst', hgd'⟩ := key .simple trivial (by rw [lmeDefaultModel_step]; norm_num) (by rw [lmeDefaultModel_step]; norm_num) (by norm_num [LmeClassName.maxIter])
  subst hx hy
  have e1 : c.beta = [1 / (1 + 1e-4)] := by
    have := hst k le_rfl
    rw [lmeDefaultModel_step] at this
    rw [hXk, this]
    norm_num
  have e2 : c'.beta = [1 / (1 + 5e-2 * 1e-4)] := by
    have h1 := hst' 0 (by omega)
    rw [lmeDefaultModel_step, hX0'] at h1
    have hk : k' = 0 := by
      by_contra hk
      rcases hgd' 0 (by omega) with h | h
      · norm_num at h
      · rw [zero_add] at h1 h
        rw [h1, hX0'] at h
        norm_num at h
    rw [hXk', hk, h1]
    norm_num
  refine ⟨c, c', hc, hc', e1, e2, ?_⟩
  rw [e1, e2]
  norm_num

end Verif
