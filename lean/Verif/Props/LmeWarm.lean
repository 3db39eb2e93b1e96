import Verif.Props.LmeFitTotal
import Verif.Props.LinModels

/-!
# C73: `warm_start`, and concrete fits for C74, C82, C83
-/

open Matrix

namespace Verif

variable {N k : ℕ}

/-! ## A model and data -/

/-- A plain or SR3 model with default settings. -/
noncomputable def exModel (sr3 : Option LmeSr3Cfg) (maxIter : ℤ) (reg : LmeReg) : LmeModelCfg where
  sr3 := sr3
  tol := 1e-5
  maxIter := maxIter
  stepping := "line-search"
  fixedStepLen := none
  initializer := none
  prior := none
  elasticEps := 1e-4
  reg := reg
  loggerKind := .tuple
  loggerKeys := ["converged", "loss", "jones_bic", "muller_ic"]

/-- Default settings of SR3 models. -/
noncomputable def exSr3 (practical : Bool) : LmeSr3Cfg := ⟨40, practical, 1, 1e-5, 1000, false, true, true, 1 / 2⟩

theorem exModel_robust (sr3 : Option LmeSr3Cfg) (h : ∀ s, sr3 = some s → 0 < s.ell ∧ s.takeOnlyPositivePart = true)
    (maxIter : ℤ) (reg : LmeReg) (hr : reg.Admissible) (hs : ∀ rho sigma lam, reg ≠ .scad rho sigma lam) :
    (exModel sr3 maxIter reg).Robust where
  adm := ⟨hr, by norm_num [exModel], (fun s h => by cases h), fun s hs => (h s hs).1.le⟩
  init := by simp [exModel]
  kind := rfl
  keys := by change ["converged", "loss", "jones_bic", "muller_ic"].Nodup; decide
  vaida := by change _ ∉ ["converged", "loss", "jones_bic", "muller_ic"]; decide
  flip := fun h => absurd h (by change _ ∉ ["converged", "loss", "jones_bic", "muller_ic"]; decide)
  sr3 := h
  scad := by
    intro t _
    change LmeReg.StepOk _ t reg
    cases reg with
    | scad rho sigma lam => exact absurd rfl (hs rho sigma lam)
    | _ => trivial

theorem exL1 : (LmeReg.l1 2).Admissible := show (0 : ℝ) ≤ 2 by norm_num

theorem exTab_ok' (ffi fri : Bool) (y : Vec ℝ 2) :
    ∃ P, lmeFromXY exTab (some y) none exTabLabels ffi fri none none = .ok P := by
  refine lmeFromXY_succeeds exTab (some y) none exTabLabels ffi fri none none 0 3 (by decide) (by decide) rfl (by decide)
    (by simp) ?_ ?_ (.inl rfl) (by simp) _ _ rfl rfl
  · intro r; fin_cases r <;> simp [exTab]
  · intro r; fin_cases r
    · exact ⟨1, by simp [exTab]⟩
    · exact ⟨0, by simp [exTab]⟩

theorem exTab_positive (v : Fin 4) (hv : exTabLabels[(v : ℕ)]? = some "variance") (r : Fin 2) : 0 < exTab r v := by
  fin_cases v
  · exact absurd hv (by decide)
  · exact absurd hv (by decide)
  · exact absurd hv (by decide)
  · fin_cases r <;> simp [exTab]

/-- Non-vacuity of C83: plain, SR3 and practical SR3 models with an L1 penalty are fitted to the example table, with
intercepts or without. -/
example (sr3 : Option LmeSr3Cfg) (h : sr3 = none ∨ sr3 = some (exSr3 false) ∨ sr3 = some (exSr3 true)) (ffi fri : Bool) :
    ∃ c, lmeFit (exModel sr3 100 (.l1 2)) none exTab ![26, 20] (some exTabLabels) ffi fri none none none {} = (.ok (), some c) ∧
      ∀ v ∈ c.gamma, 0 ≤ v := by
  obtain ⟨P, hP⟩ := exTab_ok' ffi fri ![26, 20]
  refine C83_fit_returns _ (exModel_robust sr3 ?_ _ (.l1 2) exL1 (by simp)) rfl none exTab _ exTabLabels ffi fri P hP
    exTab_positive none none (by simp) (by simp) false
  rintro s rfl
  rcases h with h | h | h
  · cases h
  · cases h; exact ⟨by norm_num [exSr3], rfl⟩
  · cases h; exact ⟨by norm_num [exSr3], rfl⟩

/-- Non-vacuity of C82: the model fitted to the example table predicts for both rows. -/
example : ∃ (c : LmeCoef) (o : List (Fin 2)), lmeFit (exModel none 100 (.l1 2)) none exTab ![26, 20] (some exTabLabels) true true none none none {}
      = (.ok (), some c) ∧ o.Perm (List.finRange 2) ∧
    lmePredict (some c) exTab (some exTabLabels) true true = .ok (o.map (rowPrediction c exTabLabels true true exTab 0)) := by
  obtain ⟨P, hP⟩ := exTab_ok' true true ![26, 20]
  obtain ⟨c, hc, -⟩ := C83_fit_returns _ (exModel_robust none (by simp) 100 (.l1 2) exL1 (by simp)) rfl none exTab
    ![26, 20] exTabLabels true true P hP exTab_positive none none (by simp) (by simp) false
  obtain ⟨c', g, o, h1, hg, ho, h2⟩ := C82_training_predictions _ _ _ _ _ _ _ _ _ _ _ _ hc
  cases h1
  have hg0 : g = 0 := by
    fin_cases g
    · rfl
    · exact absurd hg (by decide)
    · exact absurd hg (by decide)
    · exact absurd hg (by decide)
  subst hg0
  exact ⟨c, o, hc, ho, h2⟩

/-- Non-vacuity of C74: an L0 model without room for fixed effects but for one random effect, with an intercept in both
parts, fitted to the example table; its coefficients are all zero and at most one variance is not, that of the second
column. -/
example (sort : NpSort) : ∃ c, lmeFit (exModel none 100 (.l0 (some 0) (some 1) sort)) none exTab ![26, 20] (some exTabLabels) true true
      none none none {} = (.ok (), some c) ∧ c.beta.countP (· ≠ 0) = 0 ∧ c.gamma.countP (· ≠ 0) ≤ 1 ∧ ∀ v ∈ c.gamma, 0 ≤ v := by
  obtain ⟨P, hP⟩ := exTab_ok' true true ![26, 20]
  obtain ⟨c, hc, -⟩ := C83_fit_returns _ (exModel_robust none (by simp) 100 (.l0 (some 0) (some 1) sort) trivial (by simp)) rfl none exTab
    ![26, 20] exTabLabels true true P hP exTab_positive none none (by simp) (by simp) false
  obtain ⟨_, _, feW, reW, -, -, -, -, -, -, -, -, hf, hr, hPe⟩ := lmeFromXY_ok exTab (some ![26, 20]) none exTabLabels true true
    none none P hP
  have e1 : P.feWeights = [1, 1] := by rw [hPe]; cases hf; rfl
  have e2 : P.reWeights = [1, 1] := by rw [hPe]; cases hr; rfl
  have := C74_l0 (exModel none 100 (.l0 (some 0) (some 1) sort)) (some 0) (some 1) sort rfl (fun s h => by cases h) (by
      change (1 : ℤ) ≤ 100; norm_num) none exTab ![26, 20] exTabLabels true true none none none {} c P hP (by
      simp only [Option.getD_none, e1]; rfl) hc
  obtain ⟨hb, hg, -⟩ := this
  have hb := hb 0 rfl
  have hg := hg 1 rfl
  simp only [Option.getD_none, e1, e2] at hb hg
  refine ⟨c, hc, ?_, ?_, ?_⟩
  · have : ((List.countP (fun x => decide (x ≠ 0)) c.beta : ℕ) : ℤ) ≤ 0 := by
      refine hb.trans ?_
      simp
    omega
  · have : ((List.countP (fun x => decide (x ≠ 0)) c.gamma : ℕ) : ℤ) ≤ 1 := by
      refine hg.trans ?_
      simp
    omega
  · exact C74_variances_nonneg (exModel none 100 (.l0 (some 0) (some 1) sort)) (exModel_robust none (by simp) 100 (.l0 (some 0) (some 1) sort) trivial (by simp)).adm
      (fun s h => by cases h) (by change (1 : ℤ) ≤ 100; norm_num) none exTab ![26, 20] exTabLabels true true none none none {}
      (by simp) (by simp) c hc

/-! ## C73 -/

theorem lmeFitCore_state (M : LmeModelCfg) (st st' : LmeState) (P : LmeProblem ℝ) (a : LmeFitArgs) (w : Bool) :
    lmeFitCore M st P { a with warmStart := w } = lmeFitCore M st' P a := by
  have h : ∀ st (a : LmeFitArgs), lmeStart st P a =
      (a.beta.getD (List.replicate P.numFixed 1), a.gamma.getD (List.replicate P.numRandom 1)) := by
    intro st a
    unfold lmeStart
    simp only [sklearnCheckTruth, Bool.and_false, Bool.false_eq_true, if_false]
    cases st <;> rfl
  unfold lmeFitCore
  simp only [h]

/-- **C73** is violated: `warm_start` and the previous coefficients have no influence whatever on a fit. For every model,
every two states (fitted or not), every data and arguments, `fit` with `warm_start` on or off raises the same exception
or gives the same coefficients. -/
theorem C73_warm_start_violated (M : LmeModelCfg) (st st' : LmeState) (x : Matrix (Fin N) (Fin k) ℝ) (y : Vec ℝ N)
    (labels : Option (List String)) (ffi fri : Bool) (columns mustFe mustRe : Option (List String)) (a : LmeFitArgs) :
    (lmeFit M st x y labels ffi fri columns mustFe mustRe { a with warmStart := true }).1 =
      (lmeFit M st' x y labels ffi fri columns mustFe mustRe { a with warmStart := false }).1 ∧
    ∀ c, lmeFit M st x y labels ffi fri columns mustFe mustRe { a with warmStart := true } = (.ok (), some c) ↔
      lmeFit M st' x y labels ffi fri columns mustFe mustRe { a with warmStart := false } = (.ok (), some c) := by
  have h1 : ∀ P st w, lmeFitCore M st P { a with warmStart := w } = lmeFitCore M none P a := fun P st w =>
    lmeFitCore_state M st none P a w
  have h2 : ∀ e : Except PyErr (LmeProblem ℝ), ∀ F : LmeState → Bool → Except PyErr Unit × LmeState,
      (∀ st w, F st w = match e with
        | .error e => (.error e, st)
        | .ok P => ((lmeFitProblem M st P { a with warmStart := w }).1.map fun _ => (),
          (lmeFitProblem M st P { a with warmStart := w }).2)) →
      (F st true).1 = (F st' false).1 ∧ ∀ c, F st true = (.ok (), some c) ↔ F st' false = (.ok (), some c) := by
    intro e F hF
    rw [hF, hF]
    cases e with
    | error e => exact ⟨rfl, fun c => ⟨(fun h => by cases h), fun h => by cases h⟩⟩
    | ok P =>
      simp only [lmeFitProblem, h1]
      cases lmeFitCore M none P a with
      | error e => exact ⟨rfl, fun c => ⟨(fun h => by cases h), fun h => by cases h⟩⟩
      | ok r => exact ⟨rfl, fun c => Iff.rfl⟩
  cases labels with
  | none =>
    exact h2 (lmeFromXYDefault x (some y) columns ffi fri mustFe mustRe)
      (fun st w => lmeFit M st x y none ffi fri columns mustFe mustRe { a with warmStart := w }) fun st w => rfl
  | some l =>
    exact h2 (lmeFromXY x (some y) columns l ffi fri mustFe mustRe)
      (fun st w => lmeFit M st x y (some l) ffi fri columns mustFe mustRe { a with warmStart := w }) fun st w => rfl

theorem lmeOptimize_no_iterations {p q : ℕ} {M : LmeModelCfg} (hinit : M.initializer ≠ some "EM")
    (hpgd : ∀ s, M.sr3 = some s → s.practical = false) (hmax : M.maxIter ≤ 0) {D : List (LmeGroup p q)}
    {Pr : LmeInstPrior ℝ p q} {R : Regularizer ℝ (p + q)} {beta : Vec ℝ p} {gamma : Vec ℝ q} {x : Vec ℝ (p + q)}
    {L : Logger (PyVal ℝ (p + q))} (h : lmeOptimize M D Pr R beta gamma = .ok (x, L)) : x = joinX beta gamma := by
  have hi : ∀ ob, lmeInitialize M.initializer D ob beta gamma = .ok (beta, gamma) := by
    intro ob
    unfold lmeInitialize
    rw [if_neg hinit]
  unfold lmeOptimize at h
  simp only at h
  split at h
  · rw [hi] at h
    obtain ⟨bg, hbg, h⟩ := ebind_ok.1 h
    cases hbg
    obtain ⟨⟨⟨x', L'⟩, s'⟩, hr, h⟩ := ebind_ok.1 h
    cases h
    exact pgdOptimize_no_iterations hmax hr
  · rename_i s hs
    simp only [hi, hpgd s hs, Bool.false_eq_true, if_false] at h
    obtain ⟨bg, hbg, h⟩ := ebind_ok.1 h
    cases hbg
    obtain ⟨⟨⟨x', L'⟩, s'⟩, hr, h⟩ := ebind_ok.1 h
    cases h
    exact pgdOptimize_no_iterations hmax hr

/-- The part of **C73** that holds: the optimisation starts from `initial_parameters`, and from ones where these are not
given. A fit with no iteration allowed returns its start. In particular a user continues a fit by passing the previous
coefficients as `initial_parameters`. Missing: `warm_start` does this. -/
theorem C73_initial_parameters_partial (M : LmeModelCfg) (hinit : M.initializer ≠ some "EM")
    (hpgd : ∀ s, M.sr3 = some s → s.practical = false) (hmax : M.maxIter ≤ 0) (st : LmeState) (x : Matrix (Fin N) (Fin k) ℝ)
    (y : Vec ℝ N) (labels : List String) (ffi fri : Bool) (columns mustFe mustRe : Option (List String)) (a : LmeFitArgs)
    (c : LmeCoef) (h : lmeFit M st x y (some labels) ffi fri columns mustFe mustRe a = (.ok (), some c)) :
    c.beta = a.beta.getD (List.replicate (fixedCount labels ffi) 1) ∧
      c.gamma = a.gamma.getD (List.replicate (randomCount labels fri) 1) := by
  obtain ⟨P, c', vec, L0, hP, hc, hcore⟩ := lmeFit_ok h
  cases hc
  obtain ⟨_, _, _, _, -, -, -, -, -, -, -, -, -, -, hPe⟩ := lmeFromXY_ok x (some y) columns labels ffi fri mustFe mustRe P hP
  have hF := numFixed_eq P ffi fri (by rw [hPe])
  have hR := numRandom_eq P ffi fri (by rw [hPe])
  have hcl : P.columnLabels = labels := by rw [hPe]
  rw [hcl, ← fixedCount_eq] at hF
  rw [hcl, ← randomCount_eq] at hR
  obtain ⟨m, Pr, w, base, D, beta, gamma, us, per, -, -, -, -, -, hb, hg, hopt, -, -, rfl⟩ := lmeFitCore_ok hcore
  have hv := lmeOptimize_no_iterations hinit hpgd hmax hopt
  have hs : lmeStart st P a = (a.beta.getD (List.replicate P.numFixed 1), a.gamma.getD (List.replicate P.numRandom 1)) := by
    unfold lmeStart
    simp only [sklearnCheckTruth, Bool.and_false, Bool.false_eq_true, if_false]
    cases st <;> rfl
  rw [hs] at hb hg
  rw [← hF, ← hR]
  rw [asVec_ok] at hb hg
  have e1 : xBeta (joinX beta gamma) = beta := by
    funext i; unfold xBeta joinX; rw [Fin.append_left]
  have e2 : xGamma (joinX beta gamma) = gamma := by
    funext i; unfold xGamma joinX; rw [Fin.append_right]
  rw [hv]
  simp only [e1, e2]
  exact ⟨hb, hg⟩

/-- Non-vacuity of C73: a model with coefficients 2 and variances 1 fitted again to the example table with
`warm_start=True` and no iterations has coefficients 1. -/
example : ∃ c, lmeFit (exModel none 0 (.l1 2)) (some exCoef) exTab ![26, 20] (some exTabLabels) false false none none none
    ⟨none, none, true, none, none⟩ = (.ok (), some c) ∧ c.beta = [1] ∧ exCoef.beta = [2] := by
  obtain ⟨P, hP⟩ := exTab_ok' false false ![26, 20]
  obtain ⟨c, hc, -⟩ := C83_fit_returns _ (exModel_robust none (by simp) 0 (.l1 2) exL1 (by simp)) rfl (some exCoef) exTab
    ![26, 20] exTabLabels false false P hP exTab_positive none none (by simp) (by simp) true
  obtain ⟨h1, -⟩ := C73_initial_parameters_partial _ (by simp [exModel]) (fun s h => by cases h) le_rfl _ _ _ _ _ _ _ _ _ _ _ hc
  exact ⟨c, hc, h1, rfl⟩

/-- **C73** is violated on unfitted models: for all the data and models of C83, `fit` with `warm_start=True` on a model
which has never been fitted does not raise. -/
theorem C73_unfitted_violated (M : LmeModelCfg) (hM : M.Robust) (hprior : M.prior = none) (x : Matrix (Fin N) (Fin k) ℝ) (y : Vec ℝ N)
    (labels : List String) (ffi fri : Bool) (P : LmeProblem ℝ)
    (hP : lmeFromXY x (some y) none labels ffi fri none none = .ok P)
    (hpos : ∀ v : Fin k, labels[(v : ℕ)]? = some "variance" → ∀ r, 0 < x r v) :
    (lmeFit M none x y (some labels) ffi fri none none none ⟨none, none, true, none, none⟩).1 = .ok () := by
  obtain ⟨c, hc, -⟩ := C83_fit_returns M hM hprior none x y labels ffi fri P hP hpos none none (by simp) (by simp) true
  rw [hc]

/-- Non-vacuity. -/
example : (lmeFit (exModel none 100 (.l1 2)) none exTab ![26, 20] (some exTabLabels) true true none none none
    ⟨none, none, true, none, none⟩).1 = .ok () := by
  obtain ⟨P, hP⟩ := exTab_ok' true true ![26, 20]
  exact C73_unfitted_violated _ (exModel_robust none (by simp) 100 (.l1 2) exL1 (by simp)) rfl exTab
    ![26, 20] exTabLabels true true P hP exTab_positive

/-- **C73** is violated by the linear models too: without `initial_parameters`, `warm_start` and the previous
coefficients have no influence on `fit`. -/
theorem C73_linear_violated (M : LinModelCfg) (st st' : LinState) (P : LinProblem ℝ) (weights : Option (Vec ℝ P.n)) :
    (linFitCall M st P none true weights).1 = (linFitCall M st' P none false weights).1 ∧
    ∀ c, linFitCall M st P none true weights = (.ok (), some c) ↔ linFitCall M st' P none false weights = (.ok (), some c) := by
  have h : linFit M P none true weights = linFit M P none false weights := by
    unfold linFit
    simp only [Option.getD_none, if_true, Bool.false_eq_true, if_false]
  unfold linFitCall
  rw [h]
  cases linFit M P none false weights with
  | error e => exact ⟨rfl, fun c => ⟨(fun h => by cases h), fun h => by cases h⟩⟩
  | ok r => exact ⟨rfl, fun c => Iff.rfl⟩

end Verif
