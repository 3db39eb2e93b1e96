import Verif.Model.Priors

/-!
# Specification of priors

What the documentation promises about a dictionary of `(mean, std)` pairs, without the model's arrays.
-/

namespace Verif

variable {K : Type*} [Field K] [LinearOrder K]

/-- The penalty a dictionary puts on the coordinate of column `label` at value `v`: nothing if the column is not named or has no positive `std`,
otherwise `(v - mean)²/(2·scale std)`. -/
noncomputable def columnPenalty (scale : K → K) (params : PriorParams K) (label : String) (v : K) : K :=
  match params.lookup label with
  | none => 0
  | some (mean, std) => if 0 < std then (v - mean) ^ 2 / (2 * scale std) else 0

/-- Every named parameter is a column, and no column has a negative standard deviation. -/
def PriorParams.Fits (params : PriorParams K) (cols : List String) : Prop :=
  (∀ name ms, (name, ms) ∈ params → name ∈ cols) ∧ ∀ label ∈ cols, ∀ mean std, params.lookup label = some (mean, std) → 0 ≤ std

/-- Exact second-order expansion: `g` and `H` are the gradient and the (constant) Hessian of `f`. -/
def QuadraticExpansion {n : ℕ} (f : Vec K n → K) (g : Vec K n → Vec K n) (H : Matrix (Fin n) (Fin n) K) : Prop :=
  ∀ x h : Vec K n, f (x + h) = f x + ∑ i, g x i * h i + 1 / 2 * ∑ i, ∑ j, h i * H i j * h j

/-- `H` is positive semidefinite as a quadratic form. -/
def NonnegForm {n : ℕ} (H : Matrix (Fin n) (Fin n) K) : Prop := ∀ h : Vec K n, 0 ≤ ∑ i, ∑ j, h i * H i j * h j

end Verif
