import Verif.Model.Solvers
import Verif.Model.Priors
import Mathlib.LinearAlgebra.Matrix.NonsingularInverse
import Mathlib.Data.Matrix.ColumnRowPartitioned
import Mathlib.Analysis.SpecialFunctions.Pow.Real
import Mathlib.Analysis.SpecialFunctions.Log.Basic

/-!
# Model of `src/pysr3/linear/problems.py`, `linear/oracles.py`, `linear/models.py`

Matrices are Mathlib matrices; `np.linalg.inv` is the exact inverse and raises `LinAlgError` on a singular matrix.
Shapes agree by typing, except where the code itself checks them (`predict_problem`).
-/

namespace Verif

open Matrix

/-! ## Problems -/

/-- The argument `obs_std` of a `LinearProblem` (`linear/problems.py:18, 39`): `None`, one number, an array with one entry per observation, or, when the problem comes from
`from_dataframe`, the name of a column (`linear/problems.py:116, 152`). -/
inductive StdArg (K : Type*) (m : ℕ) where
  | none
  | scalar (s : K)
  | array (v : Vec K m)
  | column (name : String)

/-- Attributes of a `LinearProblem` (`linear/problems.py:34-40`). -/
structure LinProblem (K : Type*) where
  m : ℕ
  n : ℕ
  a : Matrix (Fin m) (Fin n) K
  b : Vec K m
  c : Matrix (Fin n) (Fin n) K
  regWeights : Option (Vec K n)
  obsStd : StdArg K m

section
variable {K : Type*} [Field K] [LinearOrder K]

/-- Truth value of a `(p, p)` numpy array: `ValueError` when it has more than one element, `False` when it is empty. -/
def arrayTruth {p : ℕ} (M : Matrix (Fin p) (Fin p) K) : Except PyErr Bool :=
  if h : p = 1 then .ok (decide (M ⟨0, by omega⟩ ⟨0, by omega⟩ ≠ 0))
  else if p = 0 then .ok false
  else .error .valueError

/-- `LinearProblem.__init__`, also reached through `from_x_y` (`linear/problems.py:34-40, 96`): `self.c = c if c else np.eye(num_features)`. The argument `c` is restricted to
`None` or a square array of the documented shape. -/
def linProblemInit {m n : ℕ} (a : Matrix (Fin m) (Fin n) K) (b : Vec K m) (c : Option (Matrix (Fin n) (Fin n) K))
    (regWeights : Option (Vec K n)) (obsStd : StdArg K m := .none) : Except PyErr (LinProblem K) :=
  match c with
  | none => .ok ⟨m, n, a, b, 1, regWeights, obsStd⟩
  | some C =>
    match arrayTruth C with
    | .error e => .error e
    | .ok t => .ok ⟨m, n, a, b, if t then C else 1, regWeights, obsStd⟩

/-- The weights computed by `LinearProblem.from_dataframe` (`linear/problems.py:145-147`): `[1] * n if not must_include_features else [int(feature not in must_include_features) ...]`. -/
def dataframeWeights (features : List String) (must : Option (List String)) : Vec K features.length :=
  fun i => match must with
    | none => 1
    | some [] => 1
    | some (m :: ms) => if features[i] ∈ m :: ms then 0 else 1

/-- `LinearProblem.from_dataframe` (`linear/problems.py:112-152`); the dataframe gives a column for every name (a missing name is a `KeyError`). The name `obs_std` is stored
as it is: its column is not looked up. The columns are looked up before the constructor checks `c`. -/
def linFromDataframe {m : ℕ} (df : String → Option (Vec K m)) (features : List String) (target : String) (must : Option (List String))
    (obsStd : Option String := .none) (c : Option (Matrix (Fin features.length) (Fin features.length) K) := none) : Except PyErr (LinProblem K) :=
  if features.all (fun f => (df f).isSome) then
    match df target with
    | none => .error .keyError
    | some b => linProblemInit (Matrix.of fun i j => ((df features[j]).getD 0) i) b c (some (dataframeWeights features must))
      (match obsStd with | .none => .none | some s => .column s)
  else .error .keyError

/-- `LinearProblem.to_x_y` (`linear/problems.py:98-109`). -/
def LinProblem.toXY (P : LinProblem K) : Matrix (Fin P.m) (Fin P.n) K × Vec K P.m := (P.a, P.b)

/-- `LinearProblem.generate` (`linear/problems.py:68-73`). The draws are arguments: `u` from `np.random.rand(num_objects, num_features)`, `xr` from `np.random.rand(num_features)`,
`z` from `np.random.randn(num_objects)`; `std` is `obs_std` spread over the observations. Line 70 (`a[:, 0] = 1`) raises `IndexError` without features. `obs_std` is not passed on. -/
def linGenerate {m n : ℕ} (u : Matrix (Fin m) (Fin n) K) (trueX : Option (Vec K n)) (xr : Vec K n) (std z : Vec K m) : Except PyErr (LinProblem K) :=
  if n = 0 then .error .indexError
  else
    let a : Matrix (Fin m) (Fin n) K := Matrix.of fun i j => if j.val = 0 then 1 else u i j
    let x := trueX.getD xr
    linProblemInit a (fun i => (a *ᵥ x) i + std i * z i) none (some fun _ => 1)

/-! ## Plain oracle -/

variable {m n : ℕ}

/-- `LinearOracle.loss` (`linear/oracles.py:69`). -/
def linLoss (A : Matrix (Fin m) (Fin n) K) (b : Vec K m) (P : InstPrior K n) (x : Vec K n) : K :=
  1 / 2 * normSq (A *ᵥ x - b) + P.loss x

/-- `LinearOracle.gradient` (`linear/oracles.py:85`). -/
def linGradient (A : Matrix (Fin m) (Fin n) K) (b : Vec K m) (P : InstPrior K n) (x : Vec K n) : Vec K n :=
  Aᵀ *ᵥ (A *ᵥ x - b) + P.gradient x

/-- `LinearOracle.hessian` (`linear/oracles.py:101`). -/
def linHessian (A : Matrix (Fin m) (Fin n) K) (P : InstPrior K n) : Matrix (Fin n) (Fin n) K := Aᵀ * A + P.hessian

/-- `LinearOracle.value_function` (`linear/oracles.py:118`). -/
def linValueFunction (A : Matrix (Fin m) (Fin n) K) (b : Vec K m) (P : InstPrior K n) (x : Vec K n) : K := linLoss A b P x

/-- `LinearOracle.gradient_value_function` (`linear/oracles.py:135`). -/
def linGradientValueFunction (A : Matrix (Fin m) (Fin n) K) (b : Vec K m) (P : InstPrior K n) (x : Vec K n) : Vec K n := linGradient A b P x

/-- The prior given to the constructor of a linear oracle or model: `None` (then `NonInformativePrior`) or a `GaussianPrior`. -/
inductive PriorArg (K : Type*) where
  | none
  | gaussian (params : PriorParams K)

/-- `LinearOracle.instantiate` (`linear/oracles.py:45-46`): `self.prior.instantiate(problem)` receives the problem object itself. A `LinearProblem` defines neither
`__contains__`, `__iter__` nor `__getitem__`. -/
def linOracleInstantiate (prior : PriorArg K) (P : LinProblem K) : Except PyErr (InstPrior K P.n) :=
  match prior with
  | .none => .ok .nonInformative
  | .gaussian params =>
    match gaussInstantiateArg params .opaqueObject with
    | .error e => .error e
    | .ok ⟨k, st⟩ => if h : k = P.n then .ok (.gaussian (h ▸ st)) else .error .valueError

end

/-- The oracle object seen by the solver. -/
def linOracle {K : Type} [Field K] [LinearOrder K] {m n : ℕ} (A : Matrix (Fin m) (Fin n) K) (b : Vec K m) (P : InstPrior K n) : Oracle K n Unit where
  value := fun x s => .ok (linValueFunction A b P x, s)
  grad := fun x s => .ok (linGradientValueFunction A b P x, s)

/-- `LinearOracle.aic` (`linear/oracles.py:151-152`). -/
noncomputable def linAic {m n : ℕ} (A : Matrix (Fin m) (Fin n) ℝ) (b : Vec ℝ m) (P : InstPrior ℝ n) (x : Vec ℝ n) : ℝ :=
  linLoss A b P x + 2 * (nnzCount x : ℝ)

/-- `LinearOracle.bic` (`linear/oracles.py:168-169`). -/
noncomputable def linBic {m n : ℕ} (A : Matrix (Fin m) (Fin n) ℝ) (b : Vec ℝ m) (P : InstPrior ℝ n) (x : Vec ℝ n) : ℝ :=
  linLoss A b P x + Real.log m * (nnzCount x : ℝ)

/-! ## SR3 oracle -/

section
variable {K : Type*} [Field K] {m n : ℕ}

/-- `self.h_matrix` (`linear/oracles.py:228`): `a.T.dot(a) + lam * c.dot(c)`. -/
def sr3H (A : Matrix (Fin m) (Fin n) K) (c : Matrix (Fin n) (Fin n) K) (lam : K) : Matrix (Fin n) (Fin n) K := Aᵀ * A + lam • (c * c)

/-- `self.h_inv` (`linear/oracles.py:229`). -/
noncomputable def sr3HInv (A : Matrix (Fin m) (Fin n) K) (c : Matrix (Fin n) (Fin n) K) (lam : K) : Matrix (Fin n) (Fin n) K := (sr3H A c lam)⁻¹

/-- `LinearOracleSR3.loss` (`linear/oracles.py:266-267`); priors are rejected by the constructor (line 198). -/
def sr3Loss (A : Matrix (Fin m) (Fin n) K) (b : Vec K m) (c : Matrix (Fin n) (Fin n) K) (lam : K) (x w : Vec K n) : K :=
  1 / 2 * normSq (A *ᵥ x - b) + lam / 2 * normSq (c *ᵥ x - w)

/-- The inner update of the practical loop (`linear/oracles.py:334`): `h_inv.dot(ab + lam * c.T.dot(x))`. -/
noncomputable def sr3Inner (A : Matrix (Fin m) (Fin n) K) (b : Vec K m) (c : Matrix (Fin n) (Fin n) K) (lam : K) (x : Vec K n) : Vec K n :=
  sr3HInv A c lam *ᵥ (Aᵀ *ᵥ b + lam • (cᵀ *ᵥ x))
end

section
variable {m n : ℕ}

/-- `self.f_matrix` (`linear/oracles.py:232-233`). -/
noncomputable def sr3F (A : Matrix (Fin m) (Fin n) ℝ) (c : Matrix (Fin n) (Fin n) ℝ) (lam : ℝ) : Matrix (Fin m ⊕ Fin n) (Fin n) ℝ :=
  Matrix.fromRows (lam • (A * sr3HInv A c lam * cᵀ)) (Real.sqrt lam • (1 - lam • (c * sr3HInv A c lam * cᵀ)))

/-- `self.g_matrix` (`linear/oracles.py:234-235`). -/
noncomputable def sr3G (A : Matrix (Fin m) (Fin n) ℝ) (c : Matrix (Fin n) (Fin n) ℝ) (lam : ℝ) : Matrix (Fin m ⊕ Fin n) (Fin m) ℝ :=
  Matrix.fromRows (1 - A * sr3HInv A c lam * Aᵀ) (Real.sqrt lam • (c * sr3HInv A c lam * Aᵀ))

/-- `LinearOracleSR3.value_function` without the mode check (`linear/oracles.py:236, 284`). -/
noncomputable def sr3Value (A : Matrix (Fin m) (Fin n) ℝ) (b : Vec ℝ m) (c : Matrix (Fin n) (Fin n) ℝ) (lam : ℝ) (w : Vec ℝ n) : ℝ :=
  1 / 2 * normSq (sr3F A c lam *ᵥ w - sr3G A c lam *ᵥ b)

/-- `LinearOracleSR3.gradient_value_function` without the mode check (`linear/oracles.py:302`). -/
noncomputable def sr3Gradient (A : Matrix (Fin m) (Fin n) ℝ) (b : Vec ℝ m) (c : Matrix (Fin n) (Fin n) ℝ) (lam : ℝ) (w : Vec ℝ n) : Vec ℝ n :=
  (sr3F A c lam)ᵀ *ᵥ (sr3F A c lam *ᵥ w - sr3G A c lam *ᵥ b)

/-- `LinearOracleSR3.aic` (`linear/oracles.py:354-356`): delegates to a plain oracle. -/
noncomputable def sr3Aic (A : Matrix (Fin m) (Fin n) ℝ) (b : Vec ℝ m) (x : Vec ℝ n) : ℝ := linLoss A b .nonInformative x + 2 * (nnzCount x : ℝ)

/-- `LinearOracleSR3.bic` (`linear/oracles.py:372-374`). -/
noncomputable def sr3Bic (A : Matrix (Fin m) (Fin n) ℝ) (b : Vec ℝ m) (x : Vec ℝ n) : ℝ :=
  linLoss A b .nonInformative x + Real.log m * (nnzCount x : ℝ)

/-- The oracle object seen by the solver, with the assertions of `linear/oracles.py:283, 301` (`practical` is the oracle's flag). For a negative `lam` the square roots of
`linear/oracles.py:233, 235` are NaN, and so is everything computed from the matrices (unless they have no columns). -/
noncomputable def sr3Oracle (A : Matrix (Fin m) (Fin n) ℝ) (b : Vec ℝ m) (c : Matrix (Fin n) (Fin n) ℝ) (lam : ℝ) (practical : Bool) : Oracle ℝ n Unit where
  value := fun x s => if practical then .error .assertionError else if lam < 0 ∧ 0 < n then .error .nan else .ok (sr3Value A b c lam x, s)
  grad := fun x s => if practical then .error .assertionError else if lam < 0 ∧ 0 < n then .error .nan else .ok (sr3Gradient A b c lam x, s)

end

section
variable {K : Type} [Field K] [LinearOrder K] {m n : ℕ}

/-- The loop of `LinearOracleSR3.find_optimal_parameters` (`linear/oracles.py:332-338`). -/
noncomputable def practicalLoop (A : Matrix (Fin m) (Fin n) K) (b : Vec K m) (c : Matrix (Fin n) (Fin n) K) (lam : K) (R : Regularizer K n) (tol : K) (maxIter : ℤ)
    (x : Vec K n) (xprev : Option (Vec K n)) (iteration : ℕ) : Except PyErr (Vec K n) :=
  if h : farApart tol xprev x ∧ (iteration : ℤ) < maxIter then do
    let x' ← R.prox (sr3Inner A b c lam x) (1 / lam)
    practicalLoop A b c lam R tol maxIter x' (some x) (iteration + 1)
  else return x
termination_by (maxIter - iteration).toNat
decreasing_by omega

/-- `LinearOracleSR3.find_optimal_parameters` (`linear/oracles.py:304-338`): line 328 divides by `self.lam`. -/
noncomputable def findOptimalParameters (A : Matrix (Fin m) (Fin n) K) (b : Vec K m) (c : Matrix (Fin n) (Fin n) K) (lam : K) (R : Regularizer K n) (tol : K)
    (maxIter : ℤ) (x0 : Vec K n) : Except PyErr (Vec K n) :=
  if lam = 0 then .error .zeroDivision else practicalLoop A b c lam R tol maxIter x0 none 0
end

/-! ## Models -/

/-- Hyperparameters of a linear model: the constructor arguments of `SimpleLinearModel` and `SimpleLinearModelSR3` (`linear/models.py:209-246, 271-316`) and a builder for its regularizer
(`DummyRegularizer`, `L0Regularizer(nnz)`, ... after `instantiate(weights)`, `linear/models.py:250, 332, 393, ...`). -/
structure LinModelCfg where
  /-- `none`: plain model; `some (el, practical)`: SR3 model. -/
  sr3 : Option (ℝ × Bool)
  tol : ℝ
  maxIter : ℤ
  stepping : String
  fixedStepLen : Option ℝ
  prior : PriorArg ℝ
  loggerKind : KeyColl
  loggerKeys : List String
  regularizer : (n : ℕ) → Vec ℝ n → Regularizer ℝ n

/-- The step length given to the solver (`linear/models.py:254, 319`); `not self.fixed_step_len` is true for `None` and `0`. -/
noncomputable def LinModelCfg.step (M : LinModelCfg) : ℝ :=
  let default : ℝ := match M.sr3 with
    | none => 5 / 100
    | some (el, _) => if el = 0 then 1 else 1 / el
  match M.fixedStepLen with
  | none => default
  | some s => if s = 0 then default else s

/-- The configuration of the solver (`linear/models.py:251-254, 321-328`). -/
noncomputable def LinModelCfg.solver (M : LinModelCfg) : PGDCfg ℝ := ⟨M.tol, M.maxIter, M.stepping, M.step⟩

/-- The logging of `aic` and `bic` after optimisation (`linear/models.py:129-132`). -/
noncomputable def logIC {n : ℕ} (L : Logger (PyVal ℝ n)) (aic bic : ℝ) : Except PyErr (Logger (PyVal ℝ n)) := do
  let L1 ← if "aic" ∈ L.keys then L.add "aic" (.atom (.num (aic : WithTop ℝ))) else .ok L
  if "bic" ∈ L1.keys then L1.add "bic" (.atom (.num (bic : WithTop ℝ))) else .ok L1

/-- `LinearModel.fit_problem` (`linear/models.py:78-135`): the fitted coefficients and the logger. `x0` is `initial_parameters["x0"]` if present, used only with `warm_start`. The weights
attached to the problem are never read. -/
noncomputable def linFit (M : LinModelCfg) (P : LinProblem ℝ) (x0 : Option (Vec ℝ P.n)) (warmStart : Bool) (weights : Option (Vec ℝ P.n)) :
    Except PyErr (Vec ℝ P.n × Logger (PyVal ℝ P.n)) :=
  let ones : Vec ℝ P.n := fun _ => 1
  let R := M.regularizer P.n (weights.getD ones)
  let start : Vec ℝ P.n := if warmStart then x0.getD ones else ones
  let L : Logger (PyVal ℝ P.n) := Logger.init M.loggerKind M.loggerKeys
  match M.sr3 with
  | none => do
    let prior ← linOracleInstantiate M.prior P
    let r ← pgdOptimize (linOracle P.a P.b prior) R M.solver start L ()
    let L' ← logIC r.1.2 (linAic P.a P.b prior r.1.1) (linBic P.a P.b prior r.1.1)
    return (r.1.1, L')
  | some (el, practical) =>
    match M.prior with
    | .gaussian _ => .error .assertionError
    | .none =>
      if (sr3H P.a P.c el).det = 0 then .error .linAlgError
      else do
        let o := sr3Oracle P.a P.b P.c el false
        let r ← (if practical then
            fakeOptimize o (fun x => callReg (findOptimalParameters P.a P.b P.c el R M.tol M.maxIter x)) R start L ()
          else pgdOptimize o R M.solver start L ())
        let L' ← logIC r.1.2 (sr3Aic P.a P.b r.1.1) (sr3Bic P.a P.b r.1.1)
        return (r.1.1, L')

/-- The fitted attribute `coef_` of a model (`None`/missing before the first successful fit). -/
abbrev LinState := Option (Σ n, Vec ℝ n)

/-- `LinearModel.predict_problem` (`linear/models.py:168-194`). -/
noncomputable def linPredict (st : LinState) {m n : ℕ} (A : Matrix (Fin m) (Fin n) ℝ) : Except PyErr (Vec ℝ m) :=
  match st with
  | none => .error .notFitted
  | some ⟨k, x⟩ => if h : n = k then .ok (A *ᵥ (h ▸ x)) else .error .assertionError

/-- `get_information_criterion` of the linear models (`linear/models.py:257-267, 335-345`; `sr3` tells the two classes apart). The oracle is a new one with the default
arguments; for SR3 it is instantiated with `lam = 1`, which inverts a matrix (`linear/oracles.py:228-229`). Coefficients of another length make `a.dot(x)` raise `ValueError`. -/
noncomputable def linGetIC (sr3 : Bool) (st : LinState) {m n : ℕ} (A : Matrix (Fin m) (Fin n) ℝ) (y : Vec ℝ m) (ic : String) : Except PyErr ℝ :=
  match st with
  | none => .error .notFitted
  | some ⟨k, x⟩ => do
    let P ← linProblemInit A y none none
    if sr3 ∧ (sr3H P.a P.c 1).det = 0 then .error .linAlgError
    else if ic = "aic" then
      if h : k = P.n then .ok (if sr3 then sr3Aic P.a P.b (h ▸ x) else linAic P.a P.b .nonInformative (h ▸ x)) else .error .valueError
    else if ic = "bic" then
      if h : k = P.n then .ok (if sr3 then sr3Bic P.a P.b (h ▸ x) else linBic P.a P.b .nonInformative (h ▸ x)) else .error .valueError
    else .error .valueError

/-- A call to `fit_problem` (`linear/models.py:126-135`): `coef_` is assigned only when nothing was raised before. -/
noncomputable def linFitCall (M : LinModelCfg) (st : LinState) (P : LinProblem ℝ) (x0 : Option (Vec ℝ P.n)) (warmStart : Bool)
    (weights : Option (Vec ℝ P.n)) : Except PyErr Unit × LinState :=
  match linFit M P x0 warmStart weights with
  | .error e => (.error e, st)
  | .ok r => (.ok (), some ⟨P.n, r.1⟩)

end Verif
