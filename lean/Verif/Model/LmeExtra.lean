import Verif.Model.LmeOracle
import Mathlib.Probability.Distributions.Gaussian.Real
import Mathlib.Probability.CDF
import Mathlib.Analysis.Matrix.Spectrum

/-!
# Model of the diagnostics of the mixed-effects oracles (`/repo/src/pysr3/lme/oracles.py`)

`flip_probabilities_beta`, `get_condition_numbers` and `get_ic`.
-/

open Matrix

namespace Verif

noncomputable section

variable {p q : ℕ}

/-- `stats.norm.cdf(0, loc=mean, scale=np.sqrt(var))` (`lme/oracles.py:506, 508`). scipy returns `nan` for a scale which
is not positive (and `np.sqrt` for a negative number). -/
def normCdfZero (mean var : ℝ) : Except PyErr ℝ :=
  if 0 < var then .ok (ProbabilityTheory.cdf (ProbabilityTheory.gaussianReal mean var.toNNReal) 0) else .error .nan

/-- The body of the loop of `flip_probabilities_beta` (`lme/oracles.py:504-510`). -/
def flipProbability (mean var : ℝ) : Except PyErr ℝ :=
  if 0 < mean then normCdfZero mean var
  else if mean < 0 then (normCdfZero mean var).map fun c => 1 - c
  else .ok 0.5

/-- `flip_probabilities_beta(beta, gamma)` (`lme/oracles.py:483-511`). `hessian` is the result of `self.hessian_beta`, which
is `lmeHessianBeta` for the plain oracle and `lmeSr3HessianBeta` for the SR3 one. A `nan` anywhere is an error of the model,
so are the other entries of the array. -/
def lmeFlipProbabilities (hessian : Except PyErr (Matrix (Fin p) (Fin p) ℝ)) (beta : Vec ℝ p) : Except PyErr (Vec ℝ p) := do
  let h ← hessian
  let cov ← npInv h
  collect fun i => flipProbability (beta i) (cov i i)

/-- `x.T.dot(x)` (`lme/oracles.py:1064`) is symmetric. -/
theorem gram_isHermitian {n k : ℕ} (x : Matrix (Fin n) (Fin k) ℝ) : (xᵀ * x).IsHermitian := by
  rw [IsHermitian, conjTranspose_eq_transpose_of_trivial, transpose_mul, transpose_transpose]

/-- The singular values `np.linalg.svd(x.T.dot(x))[1]` (`lme/oracles.py:1064-1067`). The matrix is symmetric and positive
semidefinite, so they are its eigenvalues. -/
def gramSingularValues {n k : ℕ} (x : Matrix (Fin n) (Fin k) ℝ) : List ℝ :=
  List.ofFn (gram_isHermitian x).eigenvalues

/-- `np.infty if min(l) == 0 else max(l) / min(l)` (`lme/oracles.py:1069-1070`); `min` of an empty list is a `ValueError`. -/
def spread (l : List ℝ) : Except PyErr (WithTop ℝ) :=
  match l.min?, l.max? with
  | some a, some b => if a = 0 then .ok ⊤ else .ok ((b / a : ℝ) : WithTop ℝ)
  | _, _ => .error .valueError

/-- `get_condition_numbers()` (`lme/oracles.py:1053-1070`). -/
def lmeConditionNumbers (D : List (LmeGroup p q)) : Except PyErr (WithTop ℝ × WithTop ℝ) := do
  let cx ← spread (D.flatMap fun g => gramSingularValues g.x)
  let cz ← spread (D.flatMap fun g => gramSingularValues g.z)
  return (cx, cz)

/-- `get_ic(ic, beta, gamma, tolerance=…, marginalized=…)` (`lme/oracles.py:1026-1051`) of `LinearLMEOracle` (`sr3 = none`) and of `LinearLMEOracleSR3`, which inherits the method and overrides the criteria it
calls (`lme/oracles.py:1519, 1576`). The keywords of `**kwargs` default to `tolerance=0.`, `marginalized=False`; `jones2010bic` swallows `marginalized`. -/
def lmeOracleGetIc (sr3 : Option Sr3Params) (D : List (LmeGroup p q)) (P : LmeInstPrior ℝ p q) (ic : String) (beta : Vec ℝ p) (gamma : Vec ℝ q) (tolerance : ℝ := 0) (marginalized : Bool := false) :
    Except PyErr ℝ :=
  if ic = "IC_vaida2005aic" then
    match sr3 with
    | none => lmeVaida D P tolerance marginalized beta gamma
    | some S => lmeSr3Vaida D P S tolerance marginalized beta gamma
  else if ic = "IC_jones2010bic" then
    match sr3 with
    | none => lmeJonesBic D P tolerance beta gamma
    | some S => lmeSr3JonesBic D P S tolerance beta gamma
  else .error .valueError

end

end Verif
