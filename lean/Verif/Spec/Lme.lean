import Mathlib.LinearAlgebra.Matrix.PosDef
import Mathlib.Algebra.Order.Star.Real
import Verif.Model.LmeOracle
import Verif.Spec.Prior

/-!
# Specification vocabulary for the linear mixed-effects oracle

Everything here is written from the statistical model `y = X β + Z u + ε`, `u ~ N(0, diag γ)`,
`ε ~ N(0, diag l)`, without Cholesky factors.
-/

open Matrix

namespace Verif

noncomputable section

variable {p q : ℕ}

/-- Marginal covariance of the observations of a group. -/
def margCov (g : LmeGroup p q) (gamma : Vec ℝ q) : Matrix (Fin g.n) (Fin g.n) ℝ :=
  g.z * diagonal gamma * g.zᵀ + diagonal g.l

/-- Residual of the fixed effects. -/
def residual (g : LmeGroup p q) (beta : Vec ℝ p) : Fin g.n → ℝ := fun i => g.y i - ∑ k, g.x i k * beta k

/-- Marginal negative log-likelihood of one group, up to the constant `n/2 log 2π`. -/
def groupNLL (g : LmeGroup p q) (beta : Vec ℝ p) (gamma : Vec ℝ q) : ℝ :=
  1 / 2 * (residual g beta ⬝ᵥ ((margCov g gamma)⁻¹ *ᵥ residual g beta))
    + 1 / 2 * Real.log (margCov g gamma).det

/-- Marginal negative log-likelihood of all groups. -/
def marginalNLL (D : List (LmeGroup p q)) (beta : Vec ℝ p) (gamma : Vec ℝ q) : ℝ :=
  (D.map fun g => groupNLL g beta gamma).sum

/-- The data of every group have positive observation variances. -/
def PosVar (D : List (LmeGroup p q)) : Prop := ∀ g ∈ D, ∀ i, 0 < g.l i

/-- `gamma` is in the domain of the likelihood: all marginal covariances are positive definite. -/
def InDomain (D : List (LmeGroup p q)) (gamma : Vec ℝ q) : Prop := ∀ g ∈ D, (margCov g gamma).PosDef

/-- Penalised least-squares criterion of a group whose minimiser is the best linear unbiased prediction. -/
def blupCriterion (g : LmeGroup p q) (beta : Vec ℝ p) (gamma : Vec ℝ q) (u : Vec ℝ q) : ℝ :=
  1 / 2 * ∑ i, (residual g beta i - ∑ j, g.z i j * u j) ^ 2 / g.l i
    + 1 / 2 * ∑ j, (if gamma j = 0 then 0 else u j ^ 2 / gamma j)

end

end Verif
