import Verif.Model.LmeModels

/-!
# Model of the logging inside the interior-point method of the SR3 oracle (`/repo/src/pysr3/lme/oracles.py:1444-1515`)

`FakePGDSolver.optimize` hands its logger to `find_optimal_parameters` (`solvers.py:180-187`), which hands it on with `**kwargs`
(`lme/oracles.py:1371-1382`). `Model/LmeIp.lean` and `lmeOptimize` leave this logging out. The definitions here are the same functions with the
logger; `Props/LmeIpLog.lean` shows that leaving the logger out changes nothing else.
-/

open Matrix

namespace Verif

noncomputable section

variable {p q : ℕ}

/-- The test for a correction step, on the variables after the step (`lme/oracles.py:1485`). -/
def ipCorrects (c : IpCfg p q) (s : IpState p q) : Prop :=
  c.target * (s.gamma ⬝ᵥ s.v) / q < npNorm (fun j => s.gamma j * s.v j - (s.gamma ⬝ᵥ s.v) / q)

/-- Names of the other local variables of `find_optimal_parameters_ip` at the call of `logger.log(locals())` (`lme/oracles.py:1385-1507`).
Simplification: `tx` exists only after the first projection and `res` only with line search; both are listed. -/
def ipLocalNames : List String :=
  ["self", "regularizer", "increase_lambdas", "line_search", "prox_step_len", "update_prox_every", "logger", "mu_decay", "kwargs", "losses_kkt",
   "q", "I", "Zb", "x", "F_coord", "F", "dF_coord", "dF", "prev_tbeta", "prev_tgamma", "prev_beta", "prev_gamma", "tbeta_tgamma_convergence",
   "F_current", "dF_current", "direction", "ind_neg_dir", "max_step_len", "res", "tx"]

/-- `locals()` at `lme/oracles.py:1507`, on the variables after the pass. Values of no interest are opaque objects. -/
def ipLocals (s : IpState p q) (key : String) : Option (PyVal ℝ (p + q)) :=
  if key = "mu" then some (.num s.mu)
  else if key = "mu_effective" then some (.num ((s.v ⬝ᵥ s.gamma / q : ℝ)))
  else if key = "iteration" then some (.int s.iteration)
  else if key = "step_len" then some (.num s.stepLen)
  else if key = "v" then some (.arr (List.ofFn s.v))
  else if key = "beta" then some (.arr (List.ofFn s.beta))
  else if key = "gamma" then some (.arr (List.ofFn s.gamma))
  else if key = "tbeta" then some (.arr (List.ofFn s.tbeta))
  else if key = "tgamma" then some (.arr (List.ofFn s.tgamma))
  else if key ∈ ipLocalNames then some (.obj key)
  else none

open Classical in
/-- `if logger and len(logger.keys) > 0: logger.log(locals())` (`lme/oracles.py:1506-1507`), which a correction step skips by `continue`
(`lme/oracles.py:1485-1487`). -/
def ipLogPass (c : IpCfg p q) (s : IpState p q) (L : Logger (PyVal ℝ (p + q))) : Except PyErr (Logger (PyVal ℝ (p + q))) :=
  if ipCorrects c s then .ok L
  else if 0 < L.keys.length then L.log (ipLocals s) else .ok L

open Classical in
/-- The loop with the logger (`lme/oracles.py:1448-1507`). -/
def ipLoopLog (D : List (LmeGroup p q)) (P : LmeInstPrior ℝ p q) (c : IpCfg p q) (s : IpState p q) (L : Logger (PyVal ℝ (p + q))) :
    Except PyErr (IpState p q × Logger (PyVal ℝ (p + q))) :=
  if _ : s.stepLen ≠ 0 ∧ (s.iteration : ℤ) < c.nIter then
    match ipF D P s with
    | .error e => .error e
    | .ok F =>
      if (c.tol < npNorm F ∨ c.tol < s.mu) ∧ ipMoved c.tol s then
        match ipStep D P c s F with
        | .error e => .error e
        | .ok s' =>
          match ipLogPass c s' L with
          | .error e => .error e
          | .ok L' => ipLoopLog D P c { s' with iteration := s.iteration + 1 } L'
      else .ok (s, L)
  else .ok (s, L)
termination_by (c.nIter - s.iteration).toNat
decreasing_by simp_wf; omega

open Classical in
/-- `find_optimal_parameters_ip(..., logger=logger)` (`lme/oracles.py:1385-1517`): the result, the attributes of the oracle and the logger. The
early return for a problem without random effects does not touch the logger. -/
def lmeFindIpLog (D : List (LmeGroup p q)) (P : LmeInstPrior ℝ p q) (c : IpCfg p q) (o : IpOracle p q)
    (beta : Vec ℝ p) (gamma : Vec ℝ q) (tbeta : Vec ℝ p) (tgamma : Vec ℝ q) (L : Logger (PyVal ℝ (p + q))) :
    Except PyErr ((IpResult p q × IpOracle p q) × Logger (PyVal ℝ (p + q))) :=
  if q = 0 then do
    let b ← lmeSr3OptimalBeta D o.S tgamma tbeta
    return ((⟨b, tgamma, tbeta, tgamma⟩, o), L)
  else do
    let L1 ← L.add "mu_effective" (.list [])
    let L2 ← L1.add "mu" (.list [])
    let r ← ipLoopLog D P c (ipInit c o beta gamma tbeta tgamma) L2
    let F ← ipF D P r.1
    let L3 ← r.2.add "good_stopping_reason" (.atom (.bool (decide (npNorm F < c.tol ∧ r.1.mu < c.tol))))
    let L4 ← L3.add "iteration" (.atom (.int r.1.iteration))
    return ((⟨r.1.beta, r.1.gamma, r.1.tbeta, r.1.tgamma⟩,
      ⟨r.1.S, if c.warmStart then some (r.1.beta, r.1.gamma) else o.warm⟩), L4)

/-- `solver.optimize(x, ..., logger=self.logger_)` of a practical model (`lme/models.py:235-244`, `solvers.py:180-193`), with the logger handed
on to the oracle; the other models do not log inside the oracle. -/
def lmeOptimizeLog (M : LmeModelCfg) (D : List (LmeGroup p q)) (Pr : LmeInstPrior ℝ p q) (R : Regularizer ℝ (p + q))
    (beta : Vec ℝ p) (gamma : Vec ℝ q) : Except PyErr (Vec ℝ (p + q) × Logger (PyVal ℝ (p + q))) :=
  match M.sr3 with
  | none => lmeOptimize M D Pr R beta gamma
  | some s =>
    if s.practical then do
      let o : IpOracle p q := ⟨⟨s.ell, s.ell⟩, none⟩
      let bg ← lmeInitialize M.initializer D (fun g b => lmeSr3OptimalBeta D o.S g b) beta gamma
      let r ← lmeFindIpLog D Pr (s.ipPractical R) o ((2 : ℝ) • bg.1) ((2 : ℝ) • bg.2) bg.1 bg.2 (Logger.init M.loggerKind M.loggerKeys)
      let x := joinX r.1.1.tbeta r.1.1.tgamma
      let L1 ← (if "loss" ∈ r.2.keys then do
          let l ← lossAt (lmeSr3Oracle D Pr (s.ip p q)) R x r.1.2
          r.2.add "loss" (.atom (.num l.1))
        else return r.2 : Except PyErr (Logger (PyVal ℝ (p + q))))
      let L2 ← L1.add "converged" (.atom (.bool true))
      return (x, L2)
    else lmeOptimize M D Pr R beta gamma

/-- `fit_problem` up to the assignment of `coef_` (`lme/models.py:201-257`), with the logger handed to the oracle. -/
def lmeFitCoreLog (M : LmeModelCfg) (st : LmeState) (P : LmeProblem ℝ) (a : LmeFitArgs) :
    Except PyErr (LmeCoef × Vec ℝ (P.numFixed + P.numRandom) ×
      Logger (PyVal ℝ (P.numFixed + P.numRandom))) := do
  let m ← betaToGammaMap P
  let Pr ← lmePriorFor M.prior P
  let w ← M.reg.weights P.numFixed P.numRandom (a.feWeights.getD P.feWeights ++ a.reWeights.getD P.reWeights)
  let base ← M.reg.build P.numFixed P.numRandom m w
  let D ← lmeGroups P
  let beta ← asVec P.numFixed (lmeStart st P a).1
  let gamma ← asVec P.numRandom (lmeStart st P a).2
  let r ← lmeOptimizeLog M D Pr (wrapReg P.numFixed P.numRandom M.elasticEps base) beta gamma
  let us ← lmeRandomEffects D (xBeta r.1) (xGamma r.1)
  let per ← getPerGroupCoefficients (List.ofFn (xBeta r.1)) (us.map fun u => ((), List.ofFn u))
    (P.interceptLabel.getD "" :: P.columnLabels)
  return (⟨List.ofFn (xBeta r.1), List.ofFn (xGamma r.1), us.map (fun u => List.ofFn u), P.groupLabels,
    per.map (·.2)⟩, r.1, r.2)

/-- `fit_problem` (`lme/models.py:158-282`), with the logger handed to the oracle. -/
def lmeFitProblemLog (M : LmeModelCfg) (st : LmeState) (P : LmeProblem ℝ) (a : LmeFitArgs) :
    Except PyErr (Logger (PyVal ℝ (P.numFixed + P.numRandom))) × LmeState :=
  match lmeFitCoreLog M st P a with
  | .error e => (.error e, st)
  | .ok r =>
    ((do
      let D ← lmeGroups P
      let Pr ← lmePriorFor M.prior P
      lmeLogCriteria M.solverTol D Pr (M.hessian D Pr (xGamma r.2.1)) (xBeta r.2.1) (xGamma r.2.1) r.2.2), some r.1)

end

end Verif
