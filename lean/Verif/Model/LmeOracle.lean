import Mathlib.Analysis.SpecialFunctions.Log.Basic
import Mathlib.Analysis.SpecialFunctions.Pow.Real
import Mathlib.LinearAlgebra.Matrix.NonsingularInverse
import Mathlib.LinearAlgebra.Matrix.Hadamard
import Mathlib.LinearAlgebra.Matrix.Trace
import Mathlib.Data.Matrix.Block
import Verif.Model.Basic
import Verif.Model.Priors

/-!
# Model of `/repo/src/pysr3/lme/oracles.py`: evaluations of `LinearLMEOracle` and `LinearLMEOracleSR3`

Numbers are real numbers.  A mixed-effects problem is seen by the oracle as the list of tuples
`(x, y, z, obs_vars)` which iteration over `LMEProblem` yields (`lme/problems.py:151-184`), one per group;
`p` is `problem.num_fixed_features`, `q` is `problem.num_random_features`.

The two LAPACK/numpy services are modelled by their mathematical contract:

* `np.linalg.cholesky(omega)` returns *the* lower-triangular matrix `L` with positive diagonal and
  `L Lᵀ = omega`, and raises `LinAlgError` when there is none;
* `np.linalg.solve` / `np.linalg.inv` raise `LinAlgError` for a singular matrix and otherwise return the
  unique solution / inverse; `trtri` inverts a triangular matrix.

The cache of factors (`self.gamma`, `self.omega_cholesky_inv`) is modelled separately in
`Verif.Model.LmeCache`; here each method recomputes the factors, which is what `_recalculate_cholesky` does
whenever the cache is not reused.
-/

open Matrix

namespace Verif

noncomputable section

/-- One group `(x, y, z, obs_vars)` as yielded by `for x, y, z, l in self.problem`
(`lme/oracles.py:155, 187`; `lme/problems.py:151-184`). -/
structure LmeGroup (p q : ℕ) where
  /-- number of observations of the group -/
  n : ℕ
  /-- features of the fixed effects -/
  x : Matrix (Fin n) (Fin p) ℝ
  /-- observations -/
  y : Fin n → ℝ
  /-- features of the random effects -/
  z : Matrix (Fin n) (Fin q) ℝ
  /-- observation variances (called `obs_vars`, `stds` or `lam` in the code) -/
  l : Fin n → ℝ

variable {p q : ℕ}

/-- `omega = np.diag(obs_vars)`, and `omega += z.dot(np.diag(gamma)).dot(z.T)` if `len(gamma) > 0`
(`lme/oracles.py:153, 156-158`). -/
def lmeOmega (g : LmeGroup p q) (gamma : Vec ℝ q) : Matrix (Fin g.n) (Fin g.n) ℝ :=
  diagonal g.l + (if 0 < q then g.z * diagonal gamma * g.zᵀ else 0)

/-- The contract of `np.linalg.cholesky` (`lme/oracles.py:159`): `L` is lower triangular with a positive
diagonal and `L Lᵀ = A`. -/
structure IsCholesky {n : ℕ} (L A : Matrix (Fin n) (Fin n) ℝ) : Prop where
  lower : ∀ i j, i < j → L i j = 0
  diag_pos : ∀ i, 0 < L i i
  mul_transpose : L * Lᵀ = A

open Classical in
/-- The Cholesky factor, `0` if there is none (`lme/oracles.py:159`). -/
def cholFactor {n : ℕ} (A : Matrix (Fin n) (Fin n) ℝ) : Matrix (Fin n) (Fin n) ℝ :=
  if h : ∃ L, IsCholesky L A then h.choose else 0

open Classical in
/-- `np.linalg.cholesky(omega)` (`lme/oracles.py:159`). -/
def npCholesky {n : ℕ} (A : Matrix (Fin n) (Fin n) ℝ) : Except PyErr (Matrix (Fin n) (Fin n) ℝ) :=
  if ∃ L, IsCholesky L A then .ok (cholFactor A) else .error .linAlgError

/-- `invert_upper_triangular(el.T)[0].T` (`lme/oracles.py:160`), LAPACK's `trtri`. -/
def trtriInv {n : ℕ} (el : Matrix (Fin n) (Fin n) ℝ) : Matrix (Fin n) (Fin n) ℝ := ((elᵀ)⁻¹)ᵀ

open Classical in
/-- `np.linalg.solve(a, b)` (`lme/oracles.py:767, 799, 1249`). -/
def npSolve {ι : Type*} [Fintype ι] [DecidableEq ι] (a : Matrix ι ι ℝ) (b : ι → ℝ) :
    Except PyErr (ι → ℝ) :=
  if IsUnit a.det then .ok (a⁻¹ *ᵥ b) else .error .linAlgError

open Classical in
/-- `np.linalg.inv(a)` (`lme/oracles.py:532, 853, 939, 958`). -/
def npInv {ι : Type*} [Fintype ι] [DecidableEq ι] (a : Matrix ι ι ℝ) :
    Except PyErr (Matrix ι ι ℝ) :=
  if IsUnit a.det then .ok a⁻¹ else .error .linAlgError

/-- A group together with the Cholesky factor of its `Ω` and that factor's inverse: one element of
`zip(self.problem, self.omega_cholesky, self.omega_cholesky_inv)`. -/
structure LmeFactored (p q : ℕ) where
  g : LmeGroup p q
  el : Matrix (Fin g.n) (Fin g.n) ℝ
  elInv : Matrix (Fin g.n) (Fin g.n) ℝ

/-- One pass of the loop body of `_recalculate_cholesky` (`lme/oracles.py:156-162`). -/
def lmeFactor (gamma : Vec ℝ q) (g : LmeGroup p q) : Except PyErr (LmeFactored p q) := do
  let el ← npCholesky (lmeOmega g gamma)
  return ⟨g, el, trtriInv el⟩

/-- `_recalculate_cholesky(gamma)` (`lme/oracles.py:150-164`): factors of all groups. -/
def lmeRecalculate (D : List (LmeGroup p q)) (gamma : Vec ℝ q) : Except PyErr (List (LmeFactored p q)) :=
  D.mapM (lmeFactor gamma)

/-- `xi = y - x.dot(beta)` (`lme/oracles.py:188` and every other evaluation). -/
def LmeGroup.xi (g : LmeGroup p q) (beta : Vec ℝ p) : Fin g.n → ℝ := g.y - g.x *ᵥ beta

/-- The summand of `loss` (`lme/oracles.py:188-189`). -/
def lossTerm (beta : Vec ℝ p) (f : LmeFactored p q) : ℝ :=
  1 / 2 * ∑ i, (f.elInv *ᵥ f.g.xi beta) i ^ 2 - ∑ i, Real.log (f.elInv i i)

/-- `LinearLMEOracle.loss(beta, gamma)` (`lme/oracles.py:185-190`). -/
def lmeLoss (D : List (LmeGroup p q)) (P : LmeInstPrior ℝ p q) (beta : Vec ℝ p) (gamma : Vec ℝ q) :
    Except PyErr ℝ := do
  let fs ← lmeRecalculate D gamma
  return (fs.map (lossTerm beta)).sum + P.loss beta gamma

/-- The summand of `gradient_beta` (`lme/oracles.py:455-456`). -/
def gradBetaTerm (beta : Vec ℝ p) (f : LmeFactored p q) : Vec ℝ p :=
  -((f.elInv * f.g.x)ᵀ *ᵥ (f.elInv *ᵥ f.g.xi beta))

/-- `LinearLMEOracle.gradient_beta(beta, gamma)` (`lme/oracles.py:452-457`). -/
def lmeGradientBeta (D : List (LmeGroup p q)) (P : LmeInstPrior ℝ p q) (beta : Vec ℝ p) (gamma : Vec ℝ q) :
    Except PyErr (Vec ℝ p) := do
  let fs ← lmeRecalculate D gamma
  return (fs.map (gradBetaTerm beta)).sum + P.gradientBeta beta gamma

/-- The summand of `hessian_beta` (`lme/oracles.py:479-480`), also of the `kernel` of `optimal_beta`
(`lme/oracles.py:761-762`) and of `h_beta_kernel` (`lme/oracles.py:934-935`). -/
def hessBetaTerm (f : LmeFactored p q) : Matrix (Fin p) (Fin p) ℝ :=
  (f.elInv * f.g.x)ᵀ * (f.elInv * f.g.x)

/-- `LinearLMEOracle.hessian_beta(beta, gamma)` (`lme/oracles.py:476-481`). -/
def lmeHessianBeta (D : List (LmeGroup p q)) (P : LmeInstPrior ℝ p q) (gamma : Vec ℝ q) :
    Except PyErr (Matrix (Fin p) (Fin p) ℝ) := do
  let fs ← lmeRecalculate D gamma
  return (fs.map hessBetaTerm).sum + P.hessianBeta

/-- The summand of `gradient_gamma` (`lme/oracles.py:239-241`): `np.sum(el_z ** 2, axis=0)` sums over rows. -/
def gradGammaTerm (beta : Vec ℝ p) (f : LmeFactored p q) : Vec ℝ q :=
  fun j => 1 / 2 * ∑ i, (f.elInv * f.g.z) i j ^ 2
    - 1 / 2 * ((f.elInv * f.g.z)ᵀ *ᵥ (f.elInv *ᵥ f.g.xi beta)) j ^ 2

/-- `LinearLMEOracle.gradient_gamma(beta, gamma)` (`lme/oracles.py:236-242`). -/
def lmeGradientGamma (D : List (LmeGroup p q)) (P : LmeInstPrior ℝ p q) (beta : Vec ℝ p) (gamma : Vec ℝ q) :
    Except PyErr (Vec ℝ q) := do
  let fs ← lmeRecalculate D gamma
  return (fs.map (gradGammaTerm beta)).sum + P.gradientGamma beta gamma

/-- Which of the three formulas of `hessian_gamma` is used: the keyword arguments
`take_only_positive_part` and `take_expected_value` (`lme/oracles.py:244-245, 274-284`). -/
inductive HessKind
  | positivePart | expected | full
  deriving DecidableEq

/-- The branch taken for given keyword arguments (`lme/oracles.py:274, 278, 280`). -/
def HessKind.ofFlags (takeOnlyPositivePart takeExpectedValue : Bool) : HessKind :=
  if takeOnlyPositivePart then .positivePart else if takeExpectedValue then .expected else .full

/-- `el_z.T.dot(el_z)` (`lme/oracles.py:277`). -/
def elZZ (f : LmeFactored p q) : Matrix (Fin q) (Fin q) ℝ := (f.elInv * f.g.z)ᵀ * (f.elInv * f.g.z)

/-- `el_z.T.dot(el_xi)` as a vector (`lme/oracles.py:273, 276`). -/
def elZXi (beta : Vec ℝ p) (f : LmeFactored p q) : Vec ℝ q :=
  (f.elInv * f.g.z)ᵀ *ᵥ (f.elInv *ᵥ f.g.xi beta)

/-- The summand of `hessian_gamma` (`lme/oracles.py:270-284`); `*` between arrays is the entrywise product,
`el_z.T.dot(el_xi).dot(el_xi.T).dot(el_z)` is the outer product of `el_z.T.dot(el_xi)` with itself. -/
def hessGammaTerm (kind : HessKind) (beta : Vec ℝ p) (f : LmeFactored p q) : Matrix (Fin q) (Fin q) ℝ :=
  match kind with
  | .positivePart => (2 • vecMulVec (elZXi beta f) (elZXi beta f)) ⊙ elZZ f
  | .expected => elZZ f ⊙ elZZ f
  | .full => (-elZZ f + 2 • vecMulVec (elZXi beta f) (elZXi beta f)) ⊙ elZZ f

/-- `LinearLMEOracle.hessian_gamma(beta, gamma, ...)` (`lme/oracles.py:267-285`). -/
def lmeHessianGamma (D : List (LmeGroup p q)) (P : LmeInstPrior ℝ p q) (kind : HessKind)
    (beta : Vec ℝ p) (gamma : Vec ℝ q) : Except PyErr (Matrix (Fin q) (Fin q) ℝ) := do
  let fs ← lmeRecalculate D gamma
  return (1 / 2 : ℝ) • (fs.map (hessGammaTerm kind beta)).sum + P.hessianGamma

/-- The summand of `hessian_beta_gamma` (`lme/oracles.py:607-611`). -/
def hessBetaGammaTerm (beta : Vec ℝ p) (f : LmeFactored p q) : Matrix (Fin q) (Fin p) ℝ :=
  diagonal (elZXi beta f) * ((f.elInv * f.g.z)ᵀ * (f.elInv * f.g.x))

/-- `LinearLMEOracle.hessian_beta_gamma(beta, gamma)` (`lme/oracles.py:604-612`). -/
def lmeHessianBetaGamma (D : List (LmeGroup p q)) (P : LmeInstPrior ℝ p q) (beta : Vec ℝ p)
    (gamma : Vec ℝ q) : Except PyErr (Matrix (Fin p) (Fin q) ℝ) := do
  let fs ← lmeRecalculate D gamma
  return ((fs.map (hessBetaGammaTerm beta)).sum)ᵀ + P.hessianBetaGamma

/-- The summand of the `tail` of `optimal_beta` (`lme/oracles.py:763`). -/
def tailTerm (f : LmeFactored p q) : Vec ℝ p := (f.elInv * f.g.x)ᵀ *ᵥ (f.elInv *ᵥ f.g.y)

/-- `optimal_beta(gamma, _dont_solve_wrt_beta=True)` (`lme/oracles.py:757-765`): `kernel, tail`. -/
def lmeKernelTail (D : List (LmeGroup p q)) (gamma : Vec ℝ q) :
    Except PyErr (Matrix (Fin p) (Fin p) ℝ × Vec ℝ p) := do
  let fs ← lmeRecalculate D gamma
  return ((fs.map hessBetaTerm).sum, (fs.map tailTerm).sum)

/-- `LinearLMEOracle.optimal_beta(gamma)` (`lme/oracles.py:757-767`).  (For a problem without groups the code
calls `np.linalg.solve(0, 0)`, which raises; the model raises too unless `p = 0`.) -/
def lmeOptimalBeta (D : List (LmeGroup p q)) (gamma : Vec ℝ q) : Except PyErr (Vec ℝ p) := do
  let kt ← lmeKernelTail D gamma
  npSolve kt.1 kt.2

/-- `mask = np.abs(gamma) > 1e-10` (`lme/oracles.py:796`). -/
abbrev LmeMask (gamma : Vec ℝ q) := {j : Fin q // 1e-10 < |gamma j|}

/-- `z[:, mask]` (`lme/oracles.py:797`). -/
def LmeGroup.zMasked (g : LmeGroup p q) (gamma : Vec ℝ q) : Matrix (Fin g.n) (LmeMask gamma) ℝ :=
  g.z.submatrix id Subtype.val

open Classical in
/-- `np.diag(1 / gamma_masked) + z_masked.T.dot(stds_inv_mat).dot(z_masked)`
(`lme/oracles.py:793, 798-799, 955`). -/
def reKernel (g : LmeGroup p q) (gamma : Vec ℝ q) : Matrix (LmeMask gamma) (LmeMask gamma) ℝ :=
  diagonal (fun j => 1 / gamma j.1) +
    (g.zMasked gamma)ᵀ * diagonal (fun i => 1 / g.l i) * g.zMasked gamma

open Classical in
/-- `u = np.zeros(len(gamma)); u[mask] = u_nonzero` (`lme/oracles.py:802-803`). -/
def scatterMask (gamma : Vec ℝ q) (u : LmeMask gamma → ℝ) : Vec ℝ q :=
  fun j => if h : 1e-10 < |gamma j| then u ⟨j, h⟩ else 0

open Classical in
/-- One pass of the loop of `optimal_random_effects` (`lme/oracles.py:792-804`). -/
def lmeRandomEffect (g : LmeGroup p q) (beta : Vec ℝ p) (gamma : Vec ℝ q) : Except PyErr (Vec ℝ q) := do
  let u ← npSolve (reKernel g gamma)
    (((g.zMasked gamma)ᵀ * diagonal (fun i => 1 / g.l i)) *ᵥ g.xi beta)
  return scatterMask gamma u

/-- `LinearLMEOracle.optimal_random_effects(beta, gamma)` (`lme/oracles.py:789-805`).  `1 / stds` is exact
division: the model is faithful for nonzero observation variances only. -/
def lmeRandomEffects (D : List (LmeGroup p q)) (beta : Vec ℝ p) (gamma : Vec ℝ q) :
    Except PyErr (List (Vec ℝ q)) := do
  let _ ← lmeRecalculate D gamma
  D.mapM fun g => lmeRandomEffect g beta gamma

/-- The summand of `demarginalized_loss` (`lme/oracles.py:213-214`). -/
def demargTerm (beta : Vec ℝ p) (gu : LmeGroup p q × Vec ℝ q) : ℝ :=
  1 / 2 * ∑ i, (gu.1.y - gu.1.x *ᵥ beta - gu.1.z *ᵥ gu.2) i ^ 2 / gu.1.l i
    + 1 / 2 * ∑ i, Real.log (gu.1.l i)

/-- `LinearLMEOracle.demarginalized_loss(beta, gamma)` (`lme/oracles.py:209-215`). -/
def lmeDemarginalizedLoss (D : List (LmeGroup p q)) (P : LmeInstPrior ℝ p q) (beta : Vec ℝ p)
    (gamma : Vec ℝ q) : Except PyErr ℝ := do
  let _ ← lmeRecalculate D gamma
  let us ← lmeRandomEffects D beta gamma
  return ((D.zip us).map (demargTerm beta)).sum + P.loss beta gamma

/-- `covariance_beta` given the Hessian method in force (`lme/oracles.py:530-533`): the code calls
`self.hessian_beta`, which is `lmeHessianBeta` for the plain oracle and `lmeSr3HessianBeta` for the SR3 one. -/
def lmeCovarianceBeta (hessian : Except PyErr (Matrix (Fin p) (Fin p) ℝ)) :
    Except PyErr (Matrix (Fin p) (Fin p) ℝ) := do
  let h ← hessian
  npInv h

/-- The body of the loop of `covariance_random_effects` (`lme/oracles.py:557-558`). -/
def covUTerm (covBeta : Matrix (Fin p) (Fin p) ℝ) (gamma : Vec ℝ q) (f : LmeFactored p q) :
    Matrix (Fin q) (Fin q) ℝ :=
  diagonal gamma * f.g.zᵀ * (f.elInv - f.elInv * f.g.x * covBeta * f.g.xᵀ * f.elInv) * f.g.z * diagonal gamma

/-- `covariance_random_effects(beta, gamma)` (`lme/oracles.py:552-560`). -/
def lmeCovarianceRandomEffects (D : List (LmeGroup p q))
    (hessian : Except PyErr (Matrix (Fin p) (Fin p) ℝ)) (gamma : Vec ℝ q) :
    Except PyErr (List (Matrix (Fin q) (Fin q) ℝ)) := do
  let fs ← lmeRecalculate D gamma
  let c ← lmeCovarianceBeta hessian
  return fs.map (covUTerm c gamma)

/-- The body of the loop of `covariance_y` (`lme/oracles.py:583`): `+ lam` broadcasts the vector `lam` over
the rows. -/
def covYTerm (covBeta : Matrix (Fin p) (Fin p) ℝ) (g : LmeGroup p q) (covU : Matrix (Fin q) (Fin q) ℝ) :
    Matrix (Fin g.n) (Fin g.n) ℝ :=
  g.x * covBeta * g.xᵀ + g.z * covU * g.zᵀ + Matrix.of fun _ j => g.l j

/-- `covariance_y(beta, gamma)` (`lme/oracles.py:579-585`), each matrix with its group. -/
def lmeCovarianceY (D : List (LmeGroup p q))
    (hessian : Except PyErr (Matrix (Fin p) (Fin p) ℝ)) (gamma : Vec ℝ q) :
    Except PyErr (List (Σ g : LmeGroup p q, Matrix (Fin g.n) (Fin g.n) ℝ)) := do
  let c ← lmeCovarianceBeta hessian
  let us ← lmeCovarianceRandomEffects D hessian gamma
  return (D.zip us).map fun gu => ⟨gu.1, covYTerm c gu.1 gu.2⟩

/-! ### Information criteria -/

/-- `c = omega / (sigma sigmaᵀ)` with `omega = L Lᵀ` (`lme/oracles.py:849-852`). -/
def corrMatrix {n : ℕ} (el : Matrix (Fin n) (Fin n) ℝ) : Matrix (Fin n) (Fin n) ℝ :=
  Matrix.of fun i j => (el * elᵀ) i j / (Real.sqrt ((el * elᵀ) i i) * Real.sqrt ((el * elᵀ) j j))

/-- The summand of `_jones2010n_eff` (`lme/oracles.py:849-853`). -/
def nEffTerm (f : LmeFactored p q) : Except PyErr ℝ := do
  let c ← npInv (corrMatrix f.el)
  return ∑ i, ∑ j, c i j

/-- `_jones2010n_eff()` with the factors in force (`lme/oracles.py:847-854`). -/
def lmeNEff (fs : List (LmeFactored p q)) : Except PyErr ℝ := do
  let ts ← fs.mapM nEffTerm
  return ts.sum

/-- `sum(np.abs(v) >= tolerance)` (`lme/oracles.py:878-879, 911-912, 1007-1008`). -/
def countGe {n : ℕ} (tol : ℝ) (v : Vec ℝ n) : ℕ := by
  classical exact (Finset.univ.filter fun i => tol ≤ |v i|).card

/-- The body of `jones2010bic` for the loss method it calls (`lme/oracles.py:877-881, 1540-1544`). -/
def jonesBody (loss : Except PyErr ℝ) (D : List (LmeGroup p q)) (tol : ℝ) (beta : Vec ℝ p) (gamma : Vec ℝ q) :
    Except PyErr ℝ := do
  let fs ← lmeRecalculate D gamma
  let v ← loss
  let m ← lmeNEff fs
  return 2 * v + ((countGe tol beta : ℝ) + countGe tol gamma) * Real.log m

/-- `problem.num_obs` (`lme/problems.py:133`): number of observations of all groups. -/
def lmeNumObs (D : List (LmeGroup p q)) : ℕ := (D.map (·.n)).sum

/-- The body of `muller_hui_2016ic` for the loss method it calls (`lme/oracles.py:906-912, 1568-1574`). -/
def mullerHuiBody (loss : Except PyErr ℝ) (D : List (LmeGroup p q)) (tol : ℝ) (beta : Vec ℝ p)
    (gamma : Vec ℝ q) : Except PyErr ℝ := do
  let _ ← lmeRecalculate D gamma
  let v ← loss
  return 2 / (lmeNumObs D : ℝ) * v + 1 / (lmeNumObs D : ℝ) * Real.log D.length * countGe tol beta
    + 2 / (lmeNumObs D : ℝ) * countGe tol gamma

/-- Rows of the stacked data: `(group, observation in the group)` in the order of concatenation. -/
abbrev LmeRow (D : List (LmeGroup p q)) := (i : Fin D.length) × Fin (D.get i).n

/-- `h_gamma_i` (`lme/oracles.py:950-958`) given `inv(h_gamma_kernel)`: the rows in the mask are
`inv(kernel) z_maskedᵀ Λ⁻¹`, the other rows are zero. -/
def hatGammaRows (g : LmeGroup p q) (gamma : Vec ℝ q) (kinv : Matrix (LmeMask gamma) (LmeMask gamma) ℝ) :
    Matrix (Fin q) (Fin g.n) ℝ :=
  Matrix.of fun j i => scatterMask gamma
    (fun m => (kinv * ((g.zMasked gamma)ᵀ * diagonal (fun i => 1 / g.l i))) m i) j

open Classical in
/-- The element of `random_effects_parts` for a group, `z.dot(h_gamma_i)` (`lme/oracles.py:948-959`), or the
`LinAlgError` of its `np.linalg.inv`. -/
def hatGammaPart (g : LmeGroup p q) (gamma : Vec ℝ q) : Except PyErr (Matrix (Fin g.n) (Fin g.n) ℝ) := do
  let kinv ← npInv (reKernel g gamma)
  return g.z * hatGammaRows g gamma kinv

open Classical in
/-- The element of `random_effects_parts` as a matrix, `0` where the code would have raised
(`lme/oracles.py:948-959`). -/
def hatGammaBlock (g : LmeGroup p q) (gamma : Vec ℝ q) : Matrix (Fin g.n) (Fin g.n) ℝ :=
  match hatGammaPart g gamma with
  | .ok m => m
  | .error _ => 0

/-- The inverse Cholesky factor of the group, `self.omega_cholesky_inv[i]` (`lme/oracles.py:160-162`). -/
def lmeElInv (g : LmeGroup p q) (gamma : Vec ℝ q) : Matrix (Fin g.n) (Fin g.n) ℝ :=
  trtriInv (cholFactor (lmeOmega g gamma))

/-- `h_beta = xs.dot(np.concatenate([inv(h_beta_kernel).dot(tail) for tail in h_beta_tail], axis=1))`
(`lme/oracles.py:933-941`): block `(i, j)` is `x_i inv(kernel) (el_x_j)ᵀ el_inv_j`. -/
def hatBeta (D : List (LmeGroup p q)) (gamma : Vec ℝ q) (kinv : Matrix (Fin p) (Fin p) ℝ) :
    Matrix (LmeRow D) (LmeRow D) ℝ :=
  Matrix.of fun r s =>
    ((D.get r.1).x * (kinv * ((lmeElInv (D.get s.1) gamma * (D.get s.1).x)ᵀ * lmeElInv (D.get s.1) gamma)))
      r.2 s.2

/-- `LinearLMEOracle._hat_matrix(gamma)` (`lme/oracles.py:927-963`). -/
def lmeHatMatrix (D : List (LmeGroup p q)) (gamma : Vec ℝ q) :
    Except PyErr (Matrix (LmeRow D) (LmeRow D) ℝ) := do
  let fs ← lmeRecalculate D gamma
  let kinv ← npInv (fs.map hessBetaTerm).sum
  let _ ← D.mapM fun g => (hatGammaPart g gamma).map fun _ => ()
  let hGamma : Matrix (LmeRow D) (LmeRow D) ℝ := blockDiagonal' fun i => hatGammaBlock (D.get i) gamma
  return hatBeta D gamma kinv + hGamma - hGamma * hatBeta D gamma kinv

/-- `_hodges2001ddf(gamma)` (`lme/oracles.py:982-983`): the trace of the hat matrix. -/
def lmeDdf (D : List (LmeGroup p q)) (gamma : Vec ℝ q) : Except PyErr ℝ := do
  let h ← lmeHatMatrix D gamma
  return h.trace

/-- The body of `vaida2005aic` for the loss methods it calls (`lme/oracles.py:1006-1025, 1597-1615`).
`alpha` of the conditional version divides by `n - p - 2` and `n - p`; the code computes with numpy integers
there, so that a zero denominator gives `inf` or `nan`: the pseudo-exception `nan`. -/
def vaidaBody (loss demargLoss : Except PyErr ℝ) (D : List (LmeGroup p q)) (tol : ℝ) (marginalized : Bool)
    (beta : Vec ℝ p) (gamma : Vec ℝ q) : Except PyErr ℝ :=
  let n : ℝ := lmeNumObs D
  let P : ℝ := countGe tol beta
  let Q : ℝ := countGe tol gamma
  if marginalized then do
    let v ← loss
    return 2 * v + 2 * (if 0 < n - P - Q - 1 then n / (n - P - Q - 1) else 1) * (P + Q)
  else do
    let rho ← lmeDdf D gamma
    let v ← demargLoss
    if n - P - 2 = 0 ∨ n - P = 0 then .error .nan
    else return 2 * v + 2 * n / (n - P - 2) * (rho - (rho - P) / (n - P)) * (P + Q)

/-- `LinearLMEOracle.jones2010bic` (`lme/oracles.py:856-881`). -/
def lmeJonesBic (D : List (LmeGroup p q)) (P : LmeInstPrior ℝ p q) (tol : ℝ) (beta : Vec ℝ p)
    (gamma : Vec ℝ q) : Except PyErr ℝ :=
  jonesBody (lmeLoss D P beta gamma) D tol beta gamma

/-- `LinearLMEOracle.muller_hui_2016ic` (`lme/oracles.py:883-912`). -/
def lmeMullerHui (D : List (LmeGroup p q)) (P : LmeInstPrior ℝ p q) (tol : ℝ) (beta : Vec ℝ p)
    (gamma : Vec ℝ q) : Except PyErr ℝ :=
  mullerHuiBody (lmeLoss D P beta gamma) D tol beta gamma

/-- `LinearLMEOracle.vaida2005aic` (`lme/oracles.py:985-1025`). -/
def lmeVaida (D : List (LmeGroup p q)) (P : LmeInstPrior ℝ p q) (tol : ℝ) (marginalized : Bool)
    (beta : Vec ℝ p) (gamma : Vec ℝ q) : Except PyErr ℝ :=
  vaidaBody (lmeLoss D P beta gamma) (lmeDemarginalizedLoss D P beta gamma) D tol marginalized beta gamma

/-! ### `LinearLMEOracleSR3` -/

/-- The attributes of `LinearLMEOracleSR3` which the evaluations read (`lme/oracles.py:1095-1097`). -/
structure Sr3Params where
  lb : ℝ
  lg : ℝ

/-- `LinearLMEOracleSR3.loss(beta, gamma, tbeta, tgamma)` (`lme/oracles.py:1127-1129`). -/
def lmeSr3Loss (D : List (LmeGroup p q)) (P : LmeInstPrior ℝ p q) (S : Sr3Params) (beta : Vec ℝ p)
    (gamma : Vec ℝ q) (tbeta : Vec ℝ p) (tgamma : Vec ℝ q) : Except PyErr ℝ := do
  let v ← lmeLoss D P beta gamma
  return v + S.lb / 2 * ∑ i, (beta i - tbeta i) ^ 2 + S.lg / 2 * ∑ j, (gamma j - tgamma j) ^ 2

/-- `LinearLMEOracleSR3.gradient_gamma` (`lme/oracles.py:1152`). -/
def lmeSr3GradientGamma (D : List (LmeGroup p q)) (P : LmeInstPrior ℝ p q) (S : Sr3Params) (beta : Vec ℝ p)
    (gamma tgamma : Vec ℝ q) : Except PyErr (Vec ℝ q) := do
  let v ← lmeGradientGamma D P beta gamma
  return v + S.lg • (gamma - tgamma)

/-- `LinearLMEOracleSR3.hessian_gamma` (`lme/oracles.py:1173`). -/
def lmeSr3HessianGamma (D : List (LmeGroup p q)) (P : LmeInstPrior ℝ p q) (S : Sr3Params) (kind : HessKind)
    (beta : Vec ℝ p) (gamma : Vec ℝ q) : Except PyErr (Matrix (Fin q) (Fin q) ℝ) := do
  let v ← lmeHessianGamma D P kind beta gamma
  return v + S.lg • (1 : Matrix (Fin q) (Fin q) ℝ)

/-- `LinearLMEOracleSR3.gradient_beta` (`lme/oracles.py:1194`). -/
def lmeSr3GradientBeta (D : List (LmeGroup p q)) (P : LmeInstPrior ℝ p q) (S : Sr3Params) (beta : Vec ℝ p)
    (gamma : Vec ℝ q) (tbeta : Vec ℝ p) : Except PyErr (Vec ℝ p) := do
  let v ← lmeGradientBeta D P beta gamma
  return v + S.lb • (beta - tbeta)

/-- `LinearLMEOracleSR3.hessian_beta` (`lme/oracles.py:1214`). -/
def lmeSr3HessianBeta (D : List (LmeGroup p q)) (P : LmeInstPrior ℝ p q) (S : Sr3Params) (gamma : Vec ℝ q) :
    Except PyErr (Matrix (Fin p) (Fin p) ℝ) := do
  let v ← lmeHessianBeta D P gamma
  return v + S.lb • (1 : Matrix (Fin p) (Fin p) ℝ)

/-- `LinearLMEOracleSR3.optimal_beta(gamma, tbeta)` (`lme/oracles.py:1246-1249`). -/
def lmeSr3OptimalBeta (D : List (LmeGroup p q)) (S : Sr3Params) (gamma : Vec ℝ q) (tbeta : Vec ℝ p) :
    Except PyErr (Vec ℝ p) := do
  let kt ← lmeKernelTail D gamma
  npSolve (S.lb • (1 : Matrix (Fin p) (Fin p) ℝ) + kt.1) (S.lb • tbeta + kt.2)

/-- `LinearLMEOracleSR3.jones2010bic` (`lme/oracles.py:1540-1544`): `self` has the relaxation constants, the
loss called is `super().loss`. -/
def lmeSr3JonesBic (D : List (LmeGroup p q)) (P : LmeInstPrior ℝ p q) (_ : Sr3Params) (tol : ℝ)
    (beta : Vec ℝ p) (gamma : Vec ℝ q) : Except PyErr ℝ :=
  jonesBody (lmeLoss D P beta gamma) D tol beta gamma

/-- `LinearLMEOracleSR3.muller_hui_2016ic` (`lme/oracles.py:1568-1574`). -/
def lmeSr3MullerHui (D : List (LmeGroup p q)) (P : LmeInstPrior ℝ p q) (_ : Sr3Params) (tol : ℝ)
    (beta : Vec ℝ p) (gamma : Vec ℝ q) : Except PyErr ℝ :=
  mullerHuiBody (lmeLoss D P beta gamma) D tol beta gamma

/-- `LinearLMEOracleSR3.vaida2005aic` (`lme/oracles.py:1597-1615`). -/
def lmeSr3Vaida (D : List (LmeGroup p q)) (P : LmeInstPrior ℝ p q) (_ : Sr3Params) (tol : ℝ)
    (marginalized : Bool) (beta : Vec ℝ p) (gamma : Vec ℝ q) : Except PyErr ℝ :=
  vaidaBody (lmeLoss D P beta gamma) (lmeDemarginalizedLoss D P beta gamma) D tol marginalized beta gamma

end

end Verif
