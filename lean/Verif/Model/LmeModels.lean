import Verif.Model.LmeExtra
import Verif.Model.LmeMap
import Verif.Model.LmeIp
import Verif.Model.LmeJoint
import Verif.Model.Solvers
import Verif.Model.Priors

/-!
# Model of the mixed-effects models (`/repo/src/pysr3/lme/models.py`)

`fit_problem`, `predict`, `score` and `get_information_criterion` of `SimpleLMEModel`, `SimpleLMEModelSR3` and the
classes derived from them (L0, L1, CAD, SCAD, each plain and SR3).
-/

open Matrix

namespace Verif

noncomputable section

/-! ## From a problem to the groups an oracle iterates over -/

/-- A group of the problem as the oracle sees it when it iterates over the problem (`lme/problems.py:151-184`).
Arrays whose sizes do not fit make the products of the oracle raise. -/
def lmeGroupOf (p q : ℕ) (x : List (List ℝ)) (y : List ℝ) (z : List (List ℝ)) (l : List ℝ) :
    Except PyErr (LmeGroup p q) :=
  if x.length = y.length ∧ z.length = y.length ∧ l.length = y.length ∧ (∀ r ∈ x, r.length = p) ∧
      (∀ r ∈ z, r.length = q) then
    .ok ⟨y.length, Matrix.of fun i j => (x.getD i []).getD j 0, fun i => y.getD i 0,
      Matrix.of fun i j => (z.getD i []).getD j 0, fun i => l.getD i 0⟩
  else .error .valueError

/-- The rows of a random design. `np.array(0)` (`lme/problems.py:453`) makes `gradient_gamma` or
`optimal_random_effects` raise (`ValueError` at `lme/oracles.py:241` or `IndexError` at `lme/oracles.py:797`; the
model does not keep the two apart). -/
def RandomDesign.toRows {K : Type*} : RandomDesign K → Except PyErr (List (List K))
  | .rows r => .ok r
  | .zeroDim => .error .valueError

/-- The groups of a problem with answers. Without answers `y - x.dot(beta)` is a `TypeError`
(`lme/oracles.py:188`). -/
def lmeGroups (P : LmeProblem ℝ) : Except PyErr (List (LmeGroup P.numFixed P.numRandom)) :=
  match P.answers with
  | none => .error .typeError
  | some ys =>
    ((P.fixedFeatures.zip ys).zip (P.randomFeatures.zip P.obsVars)).mapM fun g =>
      g.2.1.toRows >>= fun z => lmeGroupOf P.numFixed P.numRandom g.1.1 g.1.2 z g.2.2

/-- `prior.instantiate(problem)` (`lme/oracles.py:113`): the prior the oracle uses. `none` stands for
`NonInformativePriorLME` (`lme/oracles.py:68`). Simplification: a prior for another number of coefficients
(the intercept has no column name) is taken to raise; numpy would broadcast a prior for a single coefficient. -/
def lmePriorFor (prior : Option (PriorParams ℝ × PriorParams ℝ)) (P : LmeProblem ℝ) :
    Except PyErr (LmeInstPrior ℝ P.numFixed P.numRandom) :=
  match prior with
  | none => .ok .nonInformative
  | some (fe, re) =>
    match (LmePrior.init fe re).instantiate P.feColumns P.reColumns with
    | (.error e, _) => .error e
    | (.ok _, st) =>
      match st.beta, st.gamma with
      | some ⟨n, b⟩, some ⟨k, g⟩ =>
        if h : n = P.numFixed ∧ k = P.numRandom then .ok (.gaussian (h.1 ▸ b) (h.2 ▸ g)) else .error .valueError
      | _, _ => .error .valueError

/-! ## Hyperparameters -/

/-- numpy's `argsort` as used by the L0 regularizer on the arrays that occur (`regularizers.py:50`). -/
structure NpSort where
  all : ∀ n, ArgSort (Fin n) ℝ
  sub : ∀ (n : ℕ) (w : Vec ℝ n), ArgSort {i // participation w i = true} ℝ

/-- The innermost regularizer of a model (`lme/models.py:495, 681, 792, 924, 998, 1100, 1177, 1283, 1364, 1474`). -/
inductive LmeReg where
  | dummy
  | l0 (nnzTbeta nnzTgamma : Option ℤ) (sort : NpSort)
  | l1 (lam : ℝ)
  | cad (rho lam : ℝ)
  | scad (rho sigma lam : ℝ)

/-- Constructor arguments of `SimpleLMEModelSR3` which `SimpleLMEModel` does not have (`lme/models.py:576-653`). -/
structure LmeSr3Cfg where
  ell : ℝ
  practical : Bool
  updateProxEvery : ℤ
  tolOracle : ℝ
  maxIterOracle : ℤ
  warmStartOracle : Bool
  takeOnlyPositivePart : Bool
  takeExpectedValue : Bool
  target : ℝ

/-- Constructor arguments of a mixed-effects model (`lme/models.py:440-484, 576-653`). -/
structure LmeModelCfg where
  /-- `none` for a plain model. -/
  sr3 : Option LmeSr3Cfg
  tol : ℝ
  maxIter : ℤ
  stepping : String
  fixedStepLen : Option ℝ
  initializer : Option String
  prior : Option (PriorParams ℝ × PriorParams ℝ)
  elasticEps : ℝ
  reg : LmeReg
  loggerKind : KeyColl
  loggerKeys : List String

/-- `lam` of the classes whose plain versions use the step `1 / (lam + 1)` (`lme/models.py:995, 1174, 1361`). -/
def LmeReg.lam? : LmeReg → Option ℝ
  | .dummy => none
  | .l0 .. => none
  | .l1 lam => some lam
  | .cad _ lam => some lam
  | .scad _ _ lam => some lam

open Classical in
/-- The step length of `PGDSolver` (`lme/models.py:498, 663-666, 995, 1174, 1361`); `not self.fixed_step_len` is true
for `None` and `0`. Simplification: `lam = -1` divides by zero in the code, the model gives `0`. -/
def LmeModelCfg.step (M : LmeModelCfg) : ℝ :=
  let default : ℝ :=
    match M.sr3 with
    | none => match M.reg.lam? with
      | none => 5 / 100
      | some lam => 1 / (lam + 1)
    | some s => if s.ell = 0 then 1 else 1 / s.ell
  match M.fixedStepLen with
  | none => default
  | some s => if s = 0 then default else s

/-- `PGDSolver(...)` (`lme/models.py:499-500, 670-672`). -/
def LmeModelCfg.solver (M : LmeModelCfg) : PGDCfg ℝ := ⟨M.tol, M.maxIter, M.stepping, M.step⟩

/-- `solver.tol` (`solvers.py:47, 151`): `FakePGDSolver` is created with the default tolerance
(`lme/models.py:668`). -/
def LmeModelCfg.solverTol (M : LmeModelCfg) : ℝ :=
  match M.sr3 with
  | none => M.tol
  | some s => if s.practical then 1e-4 else M.tol

/-- The settings of `LinearLMEOracleSR3` for `value_function` and `gradient_value_function`
(`lme/models.py:672-680`, `lme/oracles.py:1314-1316, 1332-1335, 1385-1389`). -/
def LmeSr3Cfg.ip (s : LmeSr3Cfg) (p q : ℕ) : IpCfg p q where
  nIter := s.maxIterOracle
  tol := s.tolOracle
  warmStart := s.warmStartOracle
  kind := HessKind.ofFlags s.takeOnlyPositivePart s.takeExpectedValue
  target := s.target
  muDecay := 0.5
  lineSearch := none
  reg := none
  increaseLambdas := false
  proxStepLen := 1
  updateProxEvery := 1

/-- The settings for `find_optimal_parameters` as `FakePGDSolver.optimize` calls it (`solvers.py:180-187`): the step
of the prox is the solver's `fixed_step_len`, which `FakePGDSolver(update_prox_every=...)` leaves at its default `1`
(`solvers.py:133`, `lme/models.py:668`). -/
def LmeSr3Cfg.ipPractical (s : LmeSr3Cfg) {p q : ℕ} (R : Regularizer ℝ (p + q)) : IpCfg p q :=
  { s.ip p q with
    reg := some fun step bg => (R.prox (joinX bg.1 bg.2) step).map fun x => (xBeta x, xGamma x)
    proxStepLen := 1
    updateProxEvery := s.updateProxEvery }

/-! ## Regularizer -/

/-- `beta_to_gamma_map` used as an index (`regularizers.py:328-331`); `-1` means no random effect. -/
def mapEntry (q : ℕ) (m : List ℤ) (i : ℕ) : Option (Fin q) :=
  match m[i]? with
  | none => none
  | some e => if h : 0 ≤ e ∧ e.toNat < q then some ⟨e.toNat, h.2⟩ else none

/-- The innermost regularizer with the weights attached (`lme/models.py:218-220`, `regularizers.py:707-719,
783-801`). -/
def LmeReg.build (p q : ℕ) (m : List ℤ) (w : Vec ℝ (p + q)) : LmeReg → Except PyErr (Regularizer ℝ (p + q))
  | .dummy => .ok dummyRegularizer
  | .l0 nb ng sort =>
    .ok (l0LmeRegularizer ((⟨nb, ng, false⟩ : L0LmeCfg).instantiate p q) (fun i => mapEntry q m i)
      (some ⟨xBeta w, xGamma w, sort.sub p (xBeta w), sort.sub q (xGamma w)⟩) (sort.all p))
  | .l1 lam => .ok (l1Regularizer lam (some w))
  | .cad rho lam => .ok (cadRegularizer rho lam (some w))
  | .scad rho sigma lam => (scadInit rho sigma lam).map fun r => r (some w)

/-- `PositiveQuadrantRegularizer(ElasticRegularizer(base))` after `instantiate`
(`lme/models.py:496-497, 218-220`). -/
def wrapReg (p q : ℕ) (eps : ℝ) (base : Regularizer ℝ (p + q)) : Regularizer ℝ (p + q) :=
  positiveQuadrant (positiveMask p q) (some (elastic eps (some base)))

/-! ## Oracles as the solver sees them -/

variable {p q : ℕ}

/-- `LinearLMEOracle` (`lme/oracles.py:649-724`). -/
def lmeOracle (D : List (LmeGroup p q)) (P : LmeInstPrior ℝ p q) : Oracle ℝ (p + q) Unit where
  value := fun x s => (lmeLoss D P (xBeta x) (xGamma x)).map fun v => (v, s)
  grad := fun x s => do
    let gb ← lmeGradientBeta D P (xBeta x) (xGamma x)
    let gg ← lmeGradientGamma D P (xBeta x) (xGamma x)
    return (joinX gb gg, s)

/-- `LinearLMEOracleSR3` (`lme/oracles.py:1299-1338`). -/
def lmeSr3Oracle (D : List (LmeGroup p q)) (P : LmeInstPrior ℝ p q) (c : IpCfg p q) :
    Oracle ℝ (p + q) (IpOracle p q) where
  value := fun x s => lmeSr3ValueFunction D P c s (xBeta x) (xGamma x)
  grad := fun x s => (lmeSr3GradientValueFunction D P c s (xBeta x) (xGamma x)).map fun r =>
    (joinX r.1.1 r.1.2, r.2)

/-! ## `fit_problem` -/

/-- The dictionary `coef_` (`lme/models.py:251-257`). -/
structure LmeCoef where
  beta : List ℝ
  gamma : List ℝ
  randomEffects : List (List ℝ)
  groupLabels : List ℝ
  perGroup : List (List ℝ)

/-- The attribute `coef_` (missing before the first fit). -/
abbrev LmeState := Option LmeCoef

/-- The truth value of `check_is_fitted(self, 'coef_')` (`lme/models.py:228`): sklearn's function returns `None`. -/
def sklearnCheckTruth : Bool := false

/-- Keyword arguments of `fit_problem` (`lme/models.py:158-165`): `initial_parameters` by its two entries. -/
structure LmeFitArgs where
  beta : Option (List ℝ) := none
  gamma : Option (List ℝ) := none
  warmStart : Bool := false
  feWeights : Option (List ℝ) := none
  reWeights : Option (List ℝ) := none

/-- The starting point before the initializer (`lme/models.py:225-233`). -/
def lmeStart (st : LmeState) (P : LmeProblem ℝ) (a : LmeFitArgs) : List ℝ × List ℝ :=
  let default := (a.beta.getD (List.replicate P.numFixed 1), a.gamma.getD (List.replicate P.numRandom 1))
  match st with
  | some c => if a.warmStart && sklearnCheckTruth then (c.beta, c.gamma) else default
  | none => default

/-- `initializer == "EM"` (`lme/models.py:235-238`), `ob` being `oracle.optimal_beta(gamma, tbeta=beta)`. -/
def lmeInitialize (init : Option String) (D : List (LmeGroup p q))
    (ob : Vec ℝ q → Vec ℝ p → Except PyErr (Vec ℝ p)) (beta : Vec ℝ p) (gamma : Vec ℝ q) :
    Except PyErr (Vec ℝ p × Vec ℝ q) :=
  if init = some "EM" then do
    let beta ← ob gamma beta
    let us ← lmeRandomEffects D beta gamma
    return (beta, fun j => (us.map fun u => u j ^ 2).sum / D.length)
  else .ok (beta, gamma)

/-- `solver.optimize(x, ...)` for the model's oracle and solver (`lme/models.py:235-244`), from the initial
parameters on. -/
def lmeOptimize (M : LmeModelCfg) (D : List (LmeGroup p q)) (Pr : LmeInstPrior ℝ p q) (R : Regularizer ℝ (p + q))
    (beta : Vec ℝ p) (gamma : Vec ℝ q) :
    Except PyErr (Vec ℝ (p + q) × Logger (PyVal ℝ (p + q))) :=
  let L : Logger (PyVal ℝ (p + q)) := Logger.init M.loggerKind M.loggerKeys
  match M.sr3 with
  | none => do
    let bg ← lmeInitialize M.initializer D (fun g _ => lmeOptimalBeta D g) beta gamma
    let r ← pgdOptimize (lmeOracle D Pr) R M.solver (joinX bg.1 bg.2) L ()
    return r.1
  | some s => do
    let o : IpOracle p q := ⟨⟨s.ell, s.ell⟩, none⟩
    let bg ← lmeInitialize M.initializer D (fun g b => lmeSr3OptimalBeta D o.S g b) beta gamma
    let oracle := lmeSr3Oracle D Pr (s.ip p q)
    let r ← (if s.practical then
        fakeOptimize oracle (fun x st => (lmeSr3FindOptimal D Pr (s.ipPractical R) st (xBeta x) (xGamma x)).map
          fun r => (joinX r.1.1 r.1.2, r.2)) R (joinX bg.1 bg.2) L o
      else pgdOptimize oracle R M.solver (joinX bg.1 bg.2) L o)
    return r.1

/-- The weights a regularizer works with, from the concatenated weights (`lme/models.py:218-220`). The dummy one
ignores them. The L0 one slices them by the sizes of the problem (`regularizers.py:257`, `lme/oracles.py:627-628`), so a
surplus at the end is dropped, and too few of them make a boolean index too short (`regularizers.py:300, 335`,
`IndexError`). Simplification: the errors of the other regularizers for a wrong number of weights are raised here rather
than in the first prox (`regularizers.py:455, 540`, `ValueError`; `regularizers.py:642`, `IndexError` for too many
weights; too few weights of SCAD, which zero the remaining coordinates, and numpy's broadcasting of a single coordinate
or weight raise in the model). -/
def LmeReg.weights (p q : ℕ) (ws : List ℝ) : LmeReg → Except PyErr (Vec ℝ (p + q))
  | .dummy => .ok 0
  | .l0 .. => if h : p + q ≤ ws.length then .ok fun i => ws[i.1] else .error .indexError
  | .scad .. => if h : ws.length = p + q then .ok fun i => ws[i.1] else .error .indexError
  | _ => asVec (p + q) ws

/-- `fit_problem` up to the assignment of `coef_` (`lme/models.py:201-257`). `None` weights mean those attached to the
problem. -/
def lmeFitCore (M : LmeModelCfg) (st : LmeState) (P : LmeProblem ℝ) (a : LmeFitArgs) :
    Except PyErr (LmeCoef × Vec ℝ (P.numFixed + P.numRandom) ×
      Logger (PyVal ℝ (P.numFixed + P.numRandom))) := do
  let m ← betaToGammaMap P
  let Pr ← lmePriorFor M.prior P
  let w ← M.reg.weights P.numFixed P.numRandom (a.feWeights.getD P.feWeights ++ a.reWeights.getD P.reWeights)
  let base ← M.reg.build P.numFixed P.numRandom m w
  let D ← lmeGroups P
  let beta ← asVec P.numFixed (lmeStart st P a).1
  let gamma ← asVec P.numRandom (lmeStart st P a).2
  let r ← lmeOptimize M D Pr (wrapReg P.numFixed P.numRandom M.elasticEps base) beta gamma
  let us ← lmeRandomEffects D (xBeta r.1) (xGamma r.1)
  let per ← getPerGroupCoefficients (List.ofFn (xBeta r.1)) (us.map fun u => ((), List.ofFn u))
    (P.interceptLabel.getD "" :: P.columnLabels)
  return (⟨List.ofFn (xBeta r.1), List.ofFn (xGamma r.1), us.map (fun u => List.ofFn u), P.groupLabels,
    per.map (·.2)⟩, r.1, r.2)

/-- One conditional logging statement (`lme/models.py:259-270`). -/
def logIf {n : ℕ} (L : Logger (PyVal ℝ n)) (key : String) (v : Except PyErr (PyVal ℝ n)) :
    Except PyErr (Logger (PyVal ℝ n)) :=
  if key ∈ L.keys then do
    let r ← v
    L.add key (.atom r)
  else .ok L

/-- A criterion as an object to be stored (`lme/models.py:259-268`). -/
def criterion {n : ℕ} (v : Except PyErr ℝ) : Except PyErr (PyVal ℝ n) := v.map fun r => .num (r : WithTop ℝ)

/-- The method `hessian_beta` of the model's oracle (`lme/oracles.py:459-481, 1196-1214`; `lme/models.py:494, 672`). -/
def LmeModelCfg.hessian (M : LmeModelCfg) (D : List (LmeGroup p q)) (Pr : LmeInstPrior ℝ p q) (gamma : Vec ℝ q) :
    Except PyErr (Matrix (Fin p) (Fin p) ℝ) :=
  match M.sr3 with
  | none => lmeHessianBeta D Pr gamma
  | some s => lmeSr3HessianBeta D Pr ⟨s.ell, s.ell⟩ gamma

/-- The logging of the criteria and of the flip probabilities after the fit (`lme/models.py:259-270`), with the tolerance
`sqrt(solver.tol)`; `hessian` is the result of the oracle's `hessian_beta`. The SR3 oracle has the same criteria
(`lme/oracles.py:1519-1615`, property C65). -/
def lmeLogCriteria {n : ℕ} (tol : ℝ) (D : List (LmeGroup p q)) (Pr : LmeInstPrior ℝ p q)
    (hessian : Except PyErr (Matrix (Fin p) (Fin p) ℝ)) (beta : Vec ℝ p) (gamma : Vec ℝ q) (L : Logger (PyVal ℝ n)) :
    Except PyErr (Logger (PyVal ℝ n)) := do
  let L ← logIf L "vaida_aic" (criterion (lmeVaida D Pr (Real.sqrt tol) false beta gamma))
  let L ← logIf L "vaida_aic_marginalized" (criterion (lmeVaida D Pr (Real.sqrt tol) true beta gamma))
  let L ← logIf L "jones_bic" (criterion (lmeJonesBic D Pr (Real.sqrt tol) beta gamma))
  let L ← logIf L "muller_ic" (criterion (lmeMullerHui D Pr (Real.sqrt tol) beta gamma))
  logIf L "flip_probabilities_beta" ((lmeFlipProbabilities hessian beta).map fun v => .arr (List.ofFn v))

/-- The whole of `fit_problem` (`lme/models.py:158-274`) as an action on the attributes `coef_` and `logger_`:
`coef_` is assigned before the criteria are logged. -/
def lmeFitProblem (M : LmeModelCfg) (st : LmeState) (P : LmeProblem ℝ) (a : LmeFitArgs) :
    Except PyErr (Logger (PyVal ℝ (P.numFixed + P.numRandom))) × LmeState :=
  match lmeFitCore M st P a with
  | .error e => (.error e, st)
  | .ok r =>
    ((do
      let D ← lmeGroups P
      let Pr ← lmePriorFor M.prior P
      lmeLogCriteria M.solverTol D Pr (M.hessian D Pr (xGamma r.2.1)) (xBeta r.2.1) (xGamma r.2.1) r.2.2), some r.1)

/-- `fit(x, y, columns_labels, ...)` (`lme/models.py:145-156`); `columns_labels=None` is `labels = none`. -/
def lmeFit (M : LmeModelCfg) (st : LmeState) {N c : ℕ} (x : Matrix (Fin N) (Fin c) ℝ) (y : Vec ℝ N)
    (labels : Option (List String)) (ffi fri : Bool) (columns mustFe mustRe : Option (List String))
    (a : LmeFitArgs) : Except PyErr Unit × LmeState :=
  match (match labels with
    | some l => lmeFromXY x (some y) columns l ffi fri mustFe mustRe
    | none => lmeFromXYDefault x (some y) columns ffi fri mustFe mustRe) with
  | .error e => (.error e, st)
  | .ok P => ((lmeFitProblem M st P a).1.map fun _ => (), (lmeFitProblem M st P a).2)

/-! ## `predict` -/

/-- `x.dot(beta)` for a two-dimensional array (`lme/models.py:357, 363`). Simplification: an array without rows never
raises here. -/
def rowsDot (rows : List (List ℝ)) (v : List ℝ) : Except PyErr (List ℝ) := rows.mapM fun r => listDot r v

/-- `np.where(group_labels == label)[0]` (`lme/models.py:353`). -/
def labelPositions (groupLabels : List ℝ) (label : ℝ) : List ℕ :=
  (List.range groupLabels.length).filter fun i => groupLabels.getD i 0 = label

/-- The prediction for one group (`lme/models.py:351-364`). `np.where` of one array returns a tuple of length one, so
the first branch is always taken. `us[idx].flatten()` glues together the rows selected. -/
def lmePredictGroup (c : LmeCoef) (numRandom : ℕ) (label : ℝ) (x : List (List ℝ)) (z : RandomDesign ℝ) :
    Except PyErr (List ℝ) := do
  let idx := labelPositions c.groupLabels label
  let y ← rowsDot x c.beta
  if 0 < numRandom then
    let us ← takeIdx c.randomEffects idx
    let rows ← z.toRows
    let t ← rowsDot rows us.flatten
    if t.length = y.length then return List.zipWith (· + ·) y t else .error .valueError
  else return y

/-- `predict_problem(problem)` (`lme/models.py:337-365`). -/
def lmePredictProblem (st : LmeState) (P : LmeProblem ℝ) : Except PyErr (List ℝ) :=
  match st with
  | none => .error .notFitted
  | some c =>
    if P.numFixed ≠ c.beta.length then .error .assertionError
    else if (∃ u ∈ c.randomEffects.head?, P.numRandom ≠ u.length) then .error .assertionError
    else do
      let ys ← (P.groupLabels.zip (P.fixedFeatures.zip P.randomFeatures)).mapM fun g =>
        lmePredictGroup c P.numRandom g.1 g.2.1 g.2.2
      if ys = [] then .error .valueError else return ys.flatten

/-- `predict(x, columns_labels, ...)` (`lme/models.py:311-316`); `check_array` rejects arrays without rows or
columns. -/
def lmePredict (st : LmeState) {N c : ℕ} (x : Matrix (Fin N) (Fin c) ℝ) (labels : Option (List String))
    (ffi fri : Bool) : Except PyErr (List ℝ) :=
  match st with
  | none => .error .notFitted
  | some coef =>
    if N = 0 ∨ c = 0 then .error .valueError
    else do
      let P ← (match labels with
        | some l => lmeFromXY x none none l ffi fri none none
        | none => lmeFromXYDefault x none none ffi fri none none)
      lmePredictProblem (some coef) P

/-! ## `score` -/

/-- `1 - u / v` with numpy's division: `nan` for `0 / 0`, `-inf` (`⊥`) for `1 - u / 0` (`lme/models.py:419-421`). -/
def rSquared (u v : ℝ) : Except PyErr (WithBot ℝ) := by
  classical exact
    if v = 0 then (if u = 0 then .error .nan else .ok ⊥) else .ok ((1 - u / v : ℝ) : WithBot ℝ)

/-- `score(x, y, ...)` (`lme/models.py:416-421`). The argument `sample_weight` is not used. -/
def lmeScore (st : LmeState) {N c : ℕ} (x : Matrix (Fin N) (Fin c) ℝ) (y : Vec ℝ N) (labels : Option (List String))
    (ffi fri : Bool) : Except PyErr (WithBot ℝ) := do
  let pred ← lmePredict st x labels ffi fri
  let t ← asVec N pred
  let mean := (∑ i, y i) / N
  rSquared (∑ i, (y i - t i) ^ 2) (∑ i, (y i - mean) ^ 2)

/-! ## `get_information_criterion` -/

/-- `get_information_criterion(x, y, columns_labels, ic)` (`lme/models.py:534-545`; the SR3 version,
`lme/models.py:716-727`, differs in the class of the oracle only, whose criteria are the same). The problem is built
without intercepts, the oracle without a prior, and the tolerance keeps its default `0`. -/
def lmeGetIC (st : LmeState) {N c : ℕ} (x : Matrix (Fin N) (Fin c) ℝ) (y : Vec ℝ N) (labels : Option (List String))
    (ic : String) : Except PyErr ℝ :=
  match st with
  | none => .error .notFitted
  | some coef => do
    let P ← (match labels with
      | some l => lmeFromXY x (some y) none l false false none none
      | none => lmeFromXYDefault x (some y) none false false none none)
    if ic = "muller_ic" ∨ ic = "vaida_aic" ∨ ic = "jones_bic" then
      let D ← lmeGroups P
      let beta ← asVec P.numFixed coef.beta
      let gamma ← asVec P.numRandom coef.gamma
      if ic = "muller_ic" then lmeMullerHui D .nonInformative 0 beta gamma
      else if ic = "vaida_aic" then lmeVaida D .nonInformative 0 false beta gamma
      else lmeJonesBic D .nonInformative 0 beta gamma
    else .error .valueError

end

end Verif
